import Verif.Model.Race
/-! A call of `doc2Id` that is not interrupted does what `Front.add` does. -/

namespace Dupi.Race

/-- what the memory stands for: the table -/
def Mem.kids (x : Mem) : Option Nat → List (Bytes × UInt32)
  | none => []
  | some m => x.maps.getD m []

def Mem.node (x : Mem) (n : Node) : Fname := ⟨n.parent, n.name, x.kids n.children⟩

def Mem.table (x : Mem) : Fnames.Table := (elems x.nodes x.d).map x.node

/-- and what the indexer works on -/
def Mem.front (x : Mem) : Front := ⟨x.table, ⟨x.flushed, x.flushRate, elems x.recs x.buf⟩, x.file⟩

/-- slices lie in their arrays -/
structure InArray {α : Type} (as : List (List α)) (s : Slice) : Prop where
  arr : s.arr < as.length
  len : s.len ≤ (array as s).length

/-- as memory is between calls: every map belongs to one node -/
structure Good (x : Mem) : Prop where
  d : InArray x.nodes x.d
  buf : InArray x.recs x.buf
  map : ∀ n ∈ elems x.nodes x.d, ∀ m, n.children = some m → m < x.maps.length
  own : ∀ (i j m : Nat) (n n' : Node), (elems x.nodes x.d)[i]? = some n → (elems x.nodes x.d)[j]? = some n' → n.children = some m → n'.children = some m → i = j

theorem InArray.elems_length {α : Type} {as : List (List α)} {s : Slice} (h : InArray as s) : (elems as s).length = s.len := by
  have := h.len
  simp only [elems, List.length_take]; omega

theorem array_set {α : Type} {as : List (List α)} {s : Slice} (h : s.arr < as.length) (b : List α) : array (as.set s.arr b) s = b := by
  simp [array, List.getD_eq_getElem?_getD, h]

theorem elems_set {α : Type} {as : List (List α)} {s : Slice} (h : InArray as s) (i : Nat) (v : α) :
    elems (as.set s.arr ((array as s).set i v)) s = (elems as s).set i v := by
  rw [elems, array_set h.arr, elems, List.take_set]

theorem InArray.set {α : Type} {as : List (List α)} {s : Slice} (h : InArray as s) (i : Nat) (v : α) :
    InArray (as.set s.arr ((array as s).set i v)) s :=
  ⟨by rw [List.length_set]; exact h.arr, by rw [array_set h.arr, List.length_set]; exact h.len⟩

/-- appending -/
theorem appendWrite_spec {α : Type} (zero : α) (room : Nat) {as : List (List α)} {s : Slice} (h : InArray as s) (v : α) :
    InArray (appendWrite zero room as s v).1 (appendWrite zero room as s v).2 ∧
      elems (appendWrite zero room as s v).1 (appendWrite zero room as s v).2 = elems as s ++ [v] ∧
      (appendWrite zero room as s v).2.len = s.len + 1 := by
  unfold appendWrite
  by_cases hc : s.len < (array as s).length
  · rw [if_pos hc]
    have e : array (as.set s.arr ((array as s).set s.len v)) ⟨s.arr, s.len + 1⟩ = (array as s).set s.len v := array_set h.arr _
    refine ⟨⟨by rw [List.length_set]; exact h.arr, by rw [e, List.length_set]; exact hc⟩, ?_, rfl⟩
    rw [elems, e, elems]
    show ((array as s).set s.len v).take (s.len + 1) = _
    rw [List.take_succ_eq_append_getElem (by rw [List.length_set]; exact hc), List.getElem_set_self, List.take_set_of_le (Nat.le_refl _)]
  · rw [if_neg hc]
    have hl := h.elems_length
    have e : array (as ++ [elems as s ++ v :: List.replicate room zero]) ⟨as.length, s.len + 1⟩ = elems as s ++ v :: List.replicate room zero := by
      simp [array]
    refine ⟨⟨by simp, by rw [e]; simp [hl]⟩, ?_, rfl⟩
    rw [elems, e]
    show (elems as s ++ v :: List.replicate room zero).take (s.len + 1) = _
    rw [List.take_append, hl, List.take_of_length_le (by omega), show s.len + 1 - s.len = 1 by omega]
    rfl

/-- steps of one call -/
def alone (room : Nat) (start stop : UInt32) : Nat → Mem × Pc → M (Mem × Pc)
  | 0, s => .ok s
  | k + 1, s => do
    let s ← step room start stop s.1 s.2
    alone room start stop k s

theorem alone_add {room : Nat} {start stop : UInt32} : ∀ {j k : Nat} {s t u : Mem × Pc}, alone room start stop j s = .ok t →
    alone room start stop k t = .ok u → alone room start stop (j + k) s = .ok u := by
  intro j
  induction j with
  | zero => intro k s t u h1 h2; cases h1; simpa using h2
  | succ j ih =>
    intro k s t u h1 h2
    rw [show j + 1 + k = (j + k) + 1 by omega, alone]
    rw [alone] at h1
    cases h : step room start stop s.1 s.2 with
    | error e => rw [h] at h1; cases h1
    | ok r =>
      rw [h] at h1
      exact ih h1 h2

/-- the same but for the paths -/
structure SameRecs (x y : Mem) : Prop where
  buf : y.buf = x.buf
  recs : y.recs = x.recs
  flushed : y.flushed = x.flushed
  flushRate : y.flushRate = x.flushRate
  file : y.file = x.file

theorem SameRecs.refl (x : Mem) : SameRecs x x := ⟨rfl, rfl, rfl, rfl, rfl⟩

theorem SameRecs.trans {x y z : Mem} (h : SameRecs x y) (g : SameRecs y z) : SameRecs x z :=
  ⟨g.buf.trans h.buf, g.recs.trans h.recs, g.flushed.trans h.flushed, g.flushRate.trans h.flushRate, g.file.trans h.file⟩

/-- up to the reading of `m[p]`: there is a map now, the table is the same -/
theorem to_look {room : Nat} {start stop : UInt32} {x : Mem} (h : Good x) {parent : UInt32} {n : Node} (hn : (elems x.nodes x.d)[parent.toNat]? = some n) (p : Bytes) (ps : List Bytes) :
    ∃ k x' m n', alone room start stop k (x, .walk parent (p :: ps)) = .ok (x', .look parent m p ps) ∧ Good x' ∧ x'.table = x.table ∧ SameRecs x x' ∧ x'.d = x.d ∧
      (elems x'.nodes x'.d)[parent.toNat]? = some n' ∧ n'.children = some m ∧ x'.maps.getD m [] = x.kids n.children := by
  cases hc : n.children with
  | some m =>
    refine ⟨1, x, m, n, ?_, h, rfl, SameRecs.refl x, rfl, hn, hc, rfl⟩
    simp only [alone, step, hn, hc, bind, Except.bind]
  | none =>
    have hlt : parent.toNat < (elems x.nodes x.d).length := (List.getElem?_eq_some_iff.mp hn).1
    refine ⟨2, { x with maps := x.maps ++ [[]], nodes := x.nodes.set x.d.arr ((array x.nodes x.d).set parent.toNat { n with children := some x.maps.length }) }, x.maps.length, { n with children := some x.maps.length }, ?_, ?_⟩
    · simp only [alone, step, hn, hc, bind, Except.bind]
    have he : elems (x.nodes.set x.d.arr ((array x.nodes x.d).set parent.toNat { n with children := some x.maps.length })) x.d =
        (elems x.nodes x.d).set parent.toNat { n with children := some x.maps.length } := elems_set h.d _ _
    have hold : ∀ m, m < x.maps.length → (x.maps ++ [[]]).getD m [] = x.maps.getD m [] := by
      intro m hm
      simp only [List.getD_eq_getElem?_getD, List.getElem?_append_left hm]
    have hnew : (x.maps ++ [[]]).getD x.maps.length [] = [] := by simp
    refine ⟨⟨h.d.set _ _, h.buf, ?_, ?_⟩, ?_, ⟨rfl, rfl, rfl, rfl, rfl⟩, rfl, ?_, rfl, hnew⟩
    · intro n' hn' m hm
      show m < (x.maps ++ [[]]).length
      rw [List.length_append, List.length_singleton]
      rw [show elems _ _ = _ from he] at hn'
      rcases List.mem_or_eq_of_mem_set hn' with h1 | rfl
      · have := h.map n' h1 m hm; omega
      · cases hm; omega
    · intro i j m a b ha hb hma hmb
      rw [show elems _ _ = _ from he, List.getElem?_set] at ha hb
      by_cases hi : parent.toNat = i <;> by_cases hj : parent.toNat = j
      · omega
      · rw [if_pos hi, if_pos hlt] at ha
        rw [if_neg hj] at hb
        cases ha
        simp only [Option.some.injEq] at hma
        have := h.map b (List.mem_of_getElem? hb) m hmb
        omega
      · rw [if_pos hj, if_pos hlt] at hb
        rw [if_neg hi] at ha
        cases hb
        simp only [Option.some.injEq] at hmb
        have := h.map a (List.mem_of_getElem? ha) m hma
        omega
      · simp only [hi, hj, if_false] at ha hb
        exact h.own i j m a b ha hb hma hmb
    · show (elems _ _).map _ = (elems _ _).map _
      rw [show elems _ _ = _ from he]
      apply List.ext_getElem?
      intro i
      rw [List.getElem?_map, List.getElem?_map, List.getElem?_set]
      by_cases hi : parent.toNat = i
      · subst hi
        rw [if_pos rfl, if_pos hlt, hn]
        simp only [Option.map_some, Mem.node, Mem.kids, hc, hnew]
      · rw [if_neg hi]
        cases ha : (elems x.nodes x.d)[i]? with
        | none => rfl
        | some a =>
          simp only [Option.map_some, Option.some.injEq, Mem.node]
          cases hac : a.children with
          | none => rfl
          | some m =>
            simp only [Mem.kids]
            rw [hold m (h.map a (List.mem_of_getElem? ha) m hac)]
    · show (elems _ _)[parent.toNat]? = _
      rw [show elems _ _ = _ from he, List.getElem?_set, if_pos rfl, if_pos hlt]

/-- putting a child in its map -/
theorem note_table {x : Mem} (h : Good x) {parent : Nat} {n : Node} {m : Nat} (hn : (elems x.nodes x.d)[parent]? = some n) (hm : n.children = some m) (v : List (Bytes × UInt32)) :
    Mem.table { x with maps := x.maps.set m v } = x.table.set parent ⟨n.parent, n.name, v⟩ := by
  have hml := h.map n (List.mem_of_getElem? hn) m hm
  have hlt : parent < (elems x.nodes x.d).length := (List.getElem?_eq_some_iff.mp hn).1
  apply List.ext_getElem?
  intro i
  show ((elems x.nodes x.d).map _)[i]? = (((elems x.nodes x.d).map _).set _ _)[i]?
  rw [List.getElem?_map, List.getElem?_set, List.getElem?_map, List.length_map]
  by_cases hi : parent = i
  · subst hi
    rw [if_pos rfl, if_pos hlt, hn]
    simp [Mem.node, Mem.kids, hm, List.getD_eq_getElem?_getD, hml]
  · rw [if_neg hi]
    cases ha : (elems x.nodes x.d)[i]? with
    | none => rfl
    | some a =>
      simp only [Option.map_some, Option.some.injEq, Mem.node]
      cases hac : a.children with
      | none => rfl
      | some m' =>
        have hne : m ≠ m' := by rintro rfl; exact hi (h.own _ _ _ _ _ hn ha hm hac)
        simp only [Mem.kids, List.getD_eq_getElem?_getD, List.getElem?_set, if_neg hne]

theorem Good.note {x : Mem} (h : Good x) (m : Nat) (v : List (Bytes × UInt32)) : Good { x with maps := x.maps.set m v } :=
  ⟨h.d, h.buf, fun n hn m' hm => by show m' < (x.maps.set m v).length; rw [List.length_set]; exact h.map n hn m' hm, h.own⟩

/-- appending a node -/
theorem Good.put {x : Mem} (h : Good x) (room : Nat) (parent : UInt32) (p : Bytes) :
    Good { x with nodes := (appendWrite Node.zero room x.nodes x.d ⟨parent, p, none⟩).1, d := (appendWrite Node.zero room x.nodes x.d ⟨parent, p, none⟩).2 } ∧
    Mem.table { x with nodes := (appendWrite Node.zero room x.nodes x.d ⟨parent, p, none⟩).1, d := (appendWrite Node.zero room x.nodes x.d ⟨parent, p, none⟩).2 } =
      x.table ++ [⟨parent, p, []⟩] := by
  obtain ⟨h1, h2, h3⟩ := appendWrite_spec Node.zero room h.d ⟨parent, p, none⟩
  refine ⟨⟨h1, h.buf, ?_, ?_⟩, ?_⟩
  · intro n hn m hm
    rw [show elems _ _ = _ from h2] at hn
    rcases List.mem_append.mp hn with hn | hn
    · exact h.map n hn m hm
    · rw [List.mem_singleton] at hn; subst hn; cases hm
  · intro i j m a b ha hb hma hmb
    rw [show elems _ _ = _ from h2] at ha hb
    have key : ∀ (i : Nat) (a : Node), (elems x.nodes x.d ++ [⟨parent, p, none⟩])[i]? = some a → a.children = some m → (elems x.nodes x.d)[i]? = some a := by
      intro i a ha hma
      rw [List.getElem?_append] at ha
      split at ha
      · exact ha
      · have := List.mem_of_getElem? ha
        rw [List.mem_singleton] at this; subst this; cases hma
    exact h.own i j m a b (key i a ha hma) (key j b hb hmb) hma hmb
  · show (elems _ _).map _ = (elems _ _).map _ ++ _
    rw [show elems _ _ = _ from h2, List.map_append]
    rfl

theorem table_get (x : Mem) (i : Nat) : x.table[i]? = ((elems x.nodes x.d)[i]?).map x.node := by
  rw [Mem.table, List.getElem?_map]

theorem Good.table_length {x : Mem} (h : Good x) : x.table.length = x.d.len := by
  rw [Mem.table, List.length_map, h.d.elems_length]

/-- a call that walks down the first parts of a path, alone -/
theorem alone_down {room : Nat} {start stop : UInt32} (rest ps : List Bytes) : ∀ {x : Mem} {parent v : UInt32} {t : Fnames.Table}, Good x →
    Fnames.addParts x.table parent ps = .ok (v, t) →
    ∃ k x', alone room start stop k (x, .walk parent (ps ++ rest)) = .ok (x', .walk v rest) ∧ Good x' ∧ x'.table = t ∧ SameRecs x x' := by
  induction ps with
  | nil =>
    intro x parent v t h ha
    simp only [Fnames.addParts, Except.ok.injEq, Prod.mk.injEq] at ha
    obtain ⟨rfl, rfl⟩ := ha
    exact ⟨0, x, rfl, h, rfl, SameRecs.refl x⟩
  | cons p ps ih =>
    intro x parent v t h ha
    rw [Fnames.addParts, table_get] at ha
    cases hn : (elems x.nodes x.d)[parent.toNat]? with
    | none => rw [hn] at ha; cases ha
    | some n =>
      rw [hn] at ha
      simp only [Option.map_some] at ha
      obtain ⟨k1, x1, m, n1, g1, g2, g3, g4, g5, g6, g7, g8⟩ := to_look (room := room) (start := start) (stop := stop) h hn p (ps ++ rest)
      have hget : Fnames.get (x1.maps.getD m []) p = Fnames.get (x.node n).children p := by rw [g8]; rfl
      have hnode : x1.node n1 = x.node n := by
        have e := congrArg (fun t : Fnames.Table => t[parent.toNat]?) g3
        simp only [table_get, g6, hn, Option.map_some, Option.some.injEq] at e
        exact e
      by_cases hz : Fnames.get (x.node n).children p = 0
      · simp only [hz, if_true] at ha
        let child := UInt32.ofNat x.d.len
        let x2 : Mem := { x1 with maps := x1.maps.set m ((p, child) :: x1.maps.getD m []) }
        have q1 : Good x2 := g2.note m _
        obtain ⟨q2, q3⟩ := q1.put room parent p
        have ht2 : x2.table = x.table.set parent.toNat { x.node n with children := (p, child) :: (x.node n).children } := by
          have := note_table g2 g6 g7 ((p, child) :: x1.maps.getD m [])
          rw [g3] at this
          rw [show x2.table = _ from this, g8]
          have e1 : n1.parent = (x.node n).parent := by rw [← hnode]; rfl
          have e2 : n1.name = (x.node n).name := by rw [← hnode]; rfl
          rw [e1, e2]; rfl
        rw [h.table_length] at ha
        rw [ht2] at q3
        obtain ⟨k2, x', r1, r2, r3, r4⟩ := ih (parent := child) q2 (by rw [q3]; exact ha)
        refine ⟨k1 + (6 + k2), x', alone_add g1 (alone_add (t := (_, .walk child (ps ++ rest))) ?_ r1), r2, r3, ⟨?_, ?_, ?_, ?_, ?_⟩⟩
        · have hx2 : x2.d = x.d := g5
          simp only [alone, step, hget, hz, if_true, bind, Except.bind, hx2, g5]
          rfl
        · exact r4.buf.trans g4.buf
        · exact r4.recs.trans g4.recs
        · exact r4.flushed.trans g4.flushed
        · exact r4.flushRate.trans g4.flushRate
        · exact r4.file.trans g4.file
      · simp only [hz, if_false] at ha
        rw [← g3] at ha
        obtain ⟨k2, x', r1, r2, r3, r4⟩ := ih g2 ha
        refine ⟨k1 + (1 + k2), x', alone_add g1 (alone_add (t := (x1, .walk (Fnames.get (x.node n).children p) (ps ++ rest))) ?_ r1), r2, r3, g4.trans r4⟩
        simp only [alone, step, hget, hz, if_false, bind, Except.bind]

/-- a call that walks down the parts of a path, alone -/
theorem alone_walk {room : Nat} {start stop : UInt32} (ps : List Bytes) {x : Mem} {parent v : UInt32} {t : Fnames.Table} (h : Good x)
    (ha : Fnames.addParts x.table parent ps = .ok (v, t)) :
    ∃ k x', alone room start stop k (x, .walk parent ps) = .ok (x', .flush v) ∧ Good x' ∧ x'.table = t ∧ SameRecs x x' := by
  obtain ⟨k, x', h1, h2, h3, h4⟩ := alone_down (room := room) (start := start) (stop := stop) [] ps h ha
  rw [List.append_nil] at h1
  exact ⟨k + 1, x', alone_add h1 rfl, h2, h3, h4⟩

/-- `Adder.Add`, alone -/
theorem alone_add_rec {room : Nat} {start stop : UInt32} {x : Mem} (h : Good x) (fid : UInt32) :
    ∃ x', alone room start stop 6 (x, .flush fid) = .ok (x', .done (Dmd.add x.front.dmds x.file ⟨fid, start, stop⟩).1) ∧ Good x' ∧ x'.table = x.table ∧
      x'.front.dmds = (Dmd.add x.front.dmds x.file ⟨fid, start, stop⟩).2.1 ∧ x'.file = (Dmd.add x.front.dmds x.file ⟨fid, start, stop⟩).2.2 := by
  have hl := h.buf.elems_length
  by_cases hf : UInt32.ofNat x.buf.len = x.flushRate
  · have h0 : InArray x.recs ⟨x.buf.arr, 0⟩ := ⟨h.buf.arr, Nat.zero_le _⟩
    obtain ⟨a1, a2, a3⟩ := appendWrite_spec Dmd.zeroFields room h0 ⟨fid, start, stop⟩
    refine ⟨{ x with
      flushed := x.flushed + UInt32.ofNat x.buf.len
      file := some (x.file.getD [] ++ (elems x.recs x.buf).flatMap Dmd.encode)
      recs := (appendWrite Dmd.zeroFields room x.recs ⟨x.buf.arr, 0⟩ ⟨fid, start, stop⟩).1
      buf := (appendWrite Dmd.zeroFields room x.recs ⟨x.buf.arr, 0⟩ ⟨fid, start, stop⟩).2 }, ?_, ?_⟩
    · simp only [alone, step, hf, if_true, bind, Except.bind]
      refine congrArg Except.ok (Prod.ext rfl ?_)
      simp only [Dmd.add, Mem.front, hl, hf, if_true, Dmd.flush]
      rfl
    · refine ⟨⟨h.d, a1, h.map, h.own⟩, rfl, ?_, ?_⟩
      · simp only [Dmd.add, Mem.front, hl, hf, if_true, Dmd.flush]
        rw [show elems _ _ = _ from a2]
        rfl
      · simp only [Dmd.add, Mem.front, hl, hf, if_true, Dmd.flush]
  · obtain ⟨a1, a2, a3⟩ := appendWrite_spec Dmd.zeroFields room h.buf ⟨fid, start, stop⟩
    refine ⟨{ x with
      recs := (appendWrite Dmd.zeroFields room x.recs x.buf ⟨fid, start, stop⟩).1
      buf := (appendWrite Dmd.zeroFields room x.recs x.buf ⟨fid, start, stop⟩).2 }, ?_, ?_⟩
    · simp only [alone, step, hf, if_false, bind, Except.bind]
      refine congrArg Except.ok (Prod.ext rfl ?_)
      simp only [Dmd.add, Mem.front, hl, hf, if_false]
    · refine ⟨⟨h.d, a1, h.map, h.own⟩, rfl, ?_, ?_⟩
      · simp only [Dmd.add, Mem.front, hl, hf, if_false]
        rw [show elems _ _ = _ from a2]
      · simp only [Dmd.add, Mem.front, hl, hf, if_false]

/-- A call that is not interrupted. -/
theorem alone_call {room : Nat} {cwd : Bytes} {doc : Doc} {x : Mem} (h : Good x) {id : UInt32} {y : Front} (ha : x.front.add cwd doc = .ok (id, y)) :
    ∃ k x', alone room doc.start doc.stop k (x, begin cwd doc) = .ok (x', .done id) ∧ Good x' ∧ x'.front = y := by
  simp only [Front.add, bind, Except.bind, pure, Except.pure] at ha
  cases hp : Fnames.addPath cwd x.front.fnames doc.path with
  | error e => rw [hp] at ha; cases ha
  | ok r =>
    obtain ⟨n, t⟩ := r
    rw [hp] at ha
    simp only [Except.ok.injEq, Prod.mk.injEq] at ha
    obtain ⟨rfl, rfl⟩ := ha
    obtain ⟨k, x1, g1, g2, g3, g4⟩ := alone_walk (room := room) (start := doc.start) (stop := doc.stop) _ h hp
    obtain ⟨x2, r1, r2, r3, r4, r5⟩ := alone_add_rec (room := room) (start := doc.start) (stop := doc.stop) g2 n
    have e1 : x1.front.dmds = x.front.dmds := by
      simp only [Mem.front, g4.flushed, g4.flushRate, g4.recs, g4.buf]
    refine ⟨k + 6, x2, ?_, r2, ?_⟩
    · have := alone_add g1 r1
      rw [e1, g4.file] at this
      exact this
    · rw [e1, g4.file] at r4 r5
      have : x2.front = ⟨x2.table, x2.front.dmds, x2.file⟩ := rfl
      rw [this, r3, g3, r4, r5]
      rfl

end Dupi.Race

namespace Dupi.Race

/-! ### Schedules -/

theorem run_append (room : Nat) (σ τ : List Nat) : ∀ (s : Mem × Calls), run room s (σ ++ τ) = (do let s ← run room s σ; run room s τ) := by
  induction σ with
  | nil => intro s; rfl
  | cons i σ ih =>
    intro s
    simp only [List.cons_append, run, bind, Except.bind]
    cases stepOf room s i with
    | error e => rfl
    | ok s' => exact ih s'

theorem run_trans {room : Nat} {σ τ : List Nat} {s t u : Mem × Calls} (h : run room s σ = .ok t) (g : run room t τ = .ok u) : run room s (σ ++ τ) = .ok u := by
  rw [run_append, h]; exact g

/-- one goroutine for some time -/
theorem run_alone {room : Nat} {i : Nat} {doc : Doc} : ∀ (k : Nat) {x x' : Mem} {cs : Calls} {pc pc' : Pc}, cs[i]? = some (doc, pc) →
    alone room doc.start doc.stop k (x, pc) = .ok (x', pc') → run room (x, cs) (List.replicate k i) = .ok (x', cs.set i (doc, pc')) := by
  intro k
  induction k with
  | zero =>
    intro x x' cs pc pc' hi ha
    cases ha
    have : cs.set i (doc, pc) = cs := by
      apply List.ext_getElem?
      intro j
      rw [List.getElem?_set]
      split
      · subst_vars
        have := (List.getElem?_eq_some_iff.mp hi).1
        rw [if_pos this, hi]
      · rfl
    rw [List.replicate_zero, run, this]
  | succ k ih =>
    intro x x' cs pc pc' hi ha
    rw [alone] at ha
    cases h : step room doc.start doc.stop x pc with
    | error e => simp only [h] at ha; cases ha
    | ok r =>
      simp only [h] at ha
      have hlt := (List.getElem?_eq_some_iff.mp hi).1
      have hi' : (cs.set i (doc, r.2))[i]? = some (doc, r.2) := by rw [List.getElem?_set, if_pos rfl, if_pos hlt]
      have := ih hi' ha
      rw [List.set_set] at this
      rw [List.replicate_succ, run]
      simp only [stepOf, hi, h, bind, Except.bind, pure, Except.pure]
      exact this

theorem alone_done {room : Nat} {start stop : UInt32} (x : Mem) (id : UInt32) : ∀ k, alone room start stop k (x, .done id) = .ok (x, .done id) := by
  intro k
  induction k with
  | zero => rfl
  | succ k ih => rw [alone]; exact ih

/-- a call is over after enough steps -/
theorem alone_call_more {room : Nat} {cwd : Bytes} {doc : Doc} {x : Mem} (h : Good x) {id : UInt32} {y : Front} (ha : x.front.add cwd doc = .ok (id, y)) :
    ∃ K x', (∀ k, K ≤ k → alone room doc.start doc.stop k (x, begin cwd doc) = .ok (x', .done id)) ∧ Good x' ∧ x'.front = y := by
  obtain ⟨K, x', h1, h2, h3⟩ := alone_call (room := room) h ha
  refine ⟨K, x', fun k hk => ?_, h2, h3⟩
  rw [show k = K + (k - K) by omega]
  exact alone_add h1 (alone_done x' id _)

end Dupi.Race
