import Verif.Proof.Race
import Verif.Proof.Fnames
/-! # Schedules of two calls of `doc2Id` that go wrong -/

namespace Dupi.Race

variable {room : Nat} {a b : Doc}

theorem run_first {k : Nat} {x x' : Mem} {pc pc' : Pc} (q : Doc × Pc) (h : alone room a.start a.stop k (x, pc) = .ok (x', pc')) :
    run room (x, [(a, pc), q]) (List.replicate k 0) = .ok (x', [(a, pc'), q]) :=
  run_alone (cs := [(a, pc), q]) k rfl h

theorem run_second {k : Nat} {x x' : Mem} {pc pc' : Pc} (q : Doc × Pc) (h : alone room b.start b.stop k (x, pc) = .ok (x', pc')) :
    run room (x, [q, (b, pc)]) (List.replicate k 1) = .ok (x', [q, (b, pc')]) :=
  run_alone (cs := [q, (b, pc)]) k rfl h

/-- what another holds of the slice is not changed by appending -/
theorem appendWrite_old {α : Type} (zero : α) (room : Nat) {as : List (List α)} {s : Slice} (h : InArray as s) (v : α) :
    InArray (appendWrite zero room as s v).1 s ∧ elems (appendWrite zero room as s v).1 s = elems as s := by
  unfold appendWrite
  by_cases hc : s.len < (array as s).length
  · rw [if_pos hc]
    refine ⟨h.set s.len v, ?_⟩
    rw [elems_set h, List.set_eq_of_length_le (by rw [h.elems_length]; omega)]
  · rw [if_neg hc]
    have e : ∀ l, array (as ++ [l]) s = array as s := by
      intro l
      have := h.arr
      simp only [array, List.getD_eq_getElem?_getD, List.getElem?_append, this, if_true]
    refine ⟨⟨by have := h.arr; simp only [List.length_append, List.length_cons, List.length_nil]; omega, by rw [e]; exact h.len⟩, ?_⟩
    rw [elems, e]; rfl

/-- the flushing of one call, and of another after it -/
theorem flush_twice {x : Mem} (h : Good x) : ∃ x', (∀ start stop fid, step room start stop x (.flush fid) = .ok (x', .count fid)) ∧
    (∀ start stop fid, step room start stop x' (.flush fid) = .ok (x', .count fid)) ∧ Good x' ∧ x'.table = x.table ∧
    ∀ r, Dmd.add x.front.dmds x.file r = (UInt32.ofNat x'.buf.len + x'.flushed, ⟨x'.flushed, x'.flushRate, elems x'.recs x'.buf ++ [r]⟩, x'.file) := by
  have hl := h.buf.elems_length
  by_cases hf : UInt32.ofNat x.buf.len = x.flushRate
  · refine ⟨{ x with
      flushed := x.flushed + UInt32.ofNat x.buf.len
      file := some (x.file.getD [] ++ (elems x.recs x.buf).flatMap Dmd.encode)
      buf := ⟨x.buf.arr, 0⟩ }, ?_, ?_, ⟨h.d, ⟨h.buf.arr, Nat.zero_le _⟩, h.map, h.own⟩, rfl, ?_⟩
    · intro start stop fid
      rw [step, if_pos hf]
    · intro start stop fid
      rw [step]
      split
      · have e : elems x.recs ⟨x.buf.arr, 0⟩ = [] := by simp [elems]
        simp only [e, Option.getD_some, List.flatMap_nil, List.append_nil]
        congr 2
        simp
      · rfl
    · intro r
      simp only [Dmd.add, Mem.front, hl, hf, if_true, Dmd.flush]
      simp [elems]
  · refine ⟨x, ?_, ?_, h, rfl, ?_⟩
    · intro start stop fid; rw [step, if_neg hf]
    · intro start stop fid; rw [step, if_neg hf]
    · intro r
      simp only [Dmd.add, Mem.front, hl, hf, if_false]

/-- Two calls read `len(t.buf)` one after the other: they return the same id, and the record of the first
is lost. -/
theorem same_id {x : Mem} (h : Good x) {fa fb : UInt32} : ∃ σ x' id, run room (x, [(a, .flush fa), (b, .flush fb)]) σ = .ok (x', [(a, .done id), (b, .done id)]) ∧
    Good x' ∧ x'.table = x.table ∧ Dmd.add x.front.dmds x.file ⟨fb, b.start, b.stop⟩ = (id, x'.front.dmds, x'.file) := by
  obtain ⟨x1, h1, h2, h3, h4, h5⟩ := flush_twice (room := room) h
  obtain ⟨a1, a2, a3⟩ := appendWrite_spec Dmd.zeroFields room h3.buf ⟨fa, a.start, a.stop⟩
  obtain ⟨o1, o2⟩ := appendWrite_old Dmd.zeroFields room h3.buf ⟨fa, a.start, a.stop⟩
  let A := appendWrite Dmd.zeroFields room x1.recs x1.buf ⟨fa, a.start, a.stop⟩
  have oA : InArray A.1 x1.buf := o1
  have oE : elems A.1 x1.buf = elems x1.recs x1.buf := o2
  obtain ⟨b1, b2, b3⟩ := appendWrite_spec Dmd.zeroFields room oA ⟨fb, b.start, b.stop⟩
  let B := appendWrite Dmd.zeroFields room A.1 x1.buf ⟨fb, b.start, b.stop⟩
  let n := UInt32.ofNat x1.buf.len
  let x2 : Mem := { x1 with recs := A.1, buf := A.2 }
  let x3 : Mem := { x1 with recs := B.1, buf := B.2 }
  have s1 : alone room a.start a.stop 1 (x, .flush fa) = .ok (x1, .count fa) := by
    simp only [alone, h1, bind, Except.bind]
  have s2 : alone room b.start b.stop 1 (x1, .flush fb) = .ok (x1, .count fb) := by
    simp only [alone, h2, bind, Except.bind]
  have s3 : alone room a.start a.stop 2 (x1, .count fa) = .ok (x1, .putRec fa n x1.buf) := rfl
  have s4 : alone room b.start b.stop 2 (x1, .count fb) = .ok (x1, .putRec fb n x1.buf) := rfl
  have s5 : alone room a.start a.stop 3 (x1, .putRec fa n x1.buf) = .ok (x2, .done (n + x1.flushed)) := rfl
  have s6 : alone room b.start b.stop 3 (x2, .putRec fb n x1.buf) = .ok (x3, .done (n + x1.flushed)) := rfl
  refine ⟨_, x3, n + x1.flushed, run_trans (run_first _ s1) (run_trans (run_second _ s2) (run_trans (run_first _ s3) (run_trans (run_second _ s4)
    (run_trans (run_first _ s5) (run_second _ s6))))), ⟨h3.d, b1, h3.map, h3.own⟩, h4, ?_⟩
  rw [h5]
  have e : elems B.1 B.2 = elems x1.recs x1.buf ++ [⟨fb, b.start, b.stop⟩] := by rw [← oE]; exact b2
  simp only [Mem.front, x3, e, n]

/-- so do whole calls -/
theorem calls_same_id {cwd : Bytes} {x : Mem} (h : Good x) {fa : UInt32} {ta : Fnames.Table} (ha : Fnames.addPath cwd x.front.fnames a.path = .ok (fa, ta))
    {id : UInt32} {y : Front} (hb : Front.add cwd { x.front with fnames := ta } b = .ok (id, y)) :
    ∃ σ x', run room (x, start cwd [a, b]) σ = .ok (x', [(a, .done id), (b, .done id)]) ∧ Good x' ∧ x'.front = y := by
  simp only [Front.add, bind, Except.bind, pure, Except.pure] at hb
  cases hp : Fnames.addPath cwd ta b.path with
  | error e => rw [hp] at hb; cases hb
  | ok r =>
    obtain ⟨fb, tb⟩ := r
    rw [hp] at hb
    simp only [Except.ok.injEq, Prod.mk.injEq] at hb
    obtain ⟨rfl, rfl⟩ := hb
    obtain ⟨k1, x1, g1, g2, g3, g4⟩ := alone_walk (room := room) (start := a.start) (stop := a.stop) _ h ha
    obtain ⟨k2, x2, r1, r2, r3, r4⟩ := alone_walk (room := room) (start := b.start) (stop := b.stop) (Fnames.pathParts (absPath cwd b.path)) (parent := 0) g2 (by rw [g3]; exact hp)
    obtain ⟨σ, x3, id, q1, q2, q3, q4⟩ := same_id (room := room) (a := a) (b := b) r2 (fa := fa) (fb := fb)
    have g := g4.trans r4
    have e1 : x2.front.dmds = x.front.dmds := by simp only [Mem.front, g.flushed, g.flushRate, g.recs, g.buf]
    rw [e1, g.file] at q4
    have hr := run_trans (run_first (b, begin cwd b) g1) (run_trans (run_second (a, .flush fa) r1) q1)
    refine ⟨List.replicate k1 0 ++ (List.replicate k2 1 ++ σ), x3, ?_, q2, ?_⟩
    · rw [show (x.front.file) = x.file from rfl, q4]
      exact hr
    · rw [show (x.front.file) = x.file from rfl, q4]
      have : x3.front = ⟨x3.table, x3.front.dmds, x3.file⟩ := rfl
      rw [this, q3, r3]

/-! ### Paths -/

/-- appending by one who does not store the slice -/
theorem Good.putOnly {x : Mem} (h : Good x) (room : Nat) (w : Node) :
    Good { x with nodes := (appendWrite Node.zero room x.nodes x.d w).1 } ∧ Mem.table { x with nodes := (appendWrite Node.zero room x.nodes x.d w).1 } = x.table := by
  obtain ⟨h1, h2⟩ := appendWrite_old Node.zero room h.d w
  refine ⟨⟨h1, h.buf, ?_, ?_⟩, ?_⟩
  · rw [show elems _ _ = _ from h2]; exact h.map
  · rw [show elems _ _ = _ from h2]; exact h.own
  · unfold Mem.table
    rw [show elems _ _ = _ from h2]; rfl

/-- Two calls for files in one directory read `len(s.d)` one after the other: both get the same path id,
and the name stored for it is that of the second. -/
theorem same_path {x : Mem} (h : Good x) {v : UInt32} {n : Fname} (hn : x.table[v.toNat]? = some n) {p q : Bytes}
    (hp : Fnames.get n.children p = 0) (hq : Fnames.get n.children q = 0) :
    ∃ σ x', run room (x, [(a, .walk v [p]), (b, .walk v [q])]) σ =
        .ok (x', [(a, .flush (UInt32.ofNat x.table.length)), (b, .flush (UInt32.ofNat x.table.length))]) ∧ Good x' ∧ SameRecs x x' ∧
      x'.table = x.table.set v.toNat { n with children := (q, UInt32.ofNat x.table.length) :: (p, UInt32.ofNat x.table.length) :: n.children } ++ [⟨v, q, []⟩] := by
  rw [table_get] at hn
  obtain ⟨m0, hn0, hnode⟩ := Option.map_eq_some_iff.mp hn
  obtain ⟨k1, x1, m, n1, g1, g2, g3, g4, g5, g6, g7, g8⟩ := to_look (room := room) (start := a.start) (stop := a.stop) h hn0 p []
  have hm : x1.maps.getD m [] = n.children := by rw [g8, ← hnode]; rfl
  have hml := g2.map n1 (List.mem_of_getElem? g6) m g7
  have hlen : x.table.length = x1.d.len := by rw [g5, h.table_length]
  rw [hlen]
  let child := UInt32.ofNat x1.d.len
  have hnode1 : x1.node n1 = n := by
    have e := congrArg (fun t : Fnames.Table => t[v.toNat]?) g3
    simp only [table_get, g6, hn0, Option.map_some, Option.some.injEq] at e
    rw [e, hnode]
  let x2 : Mem := { x1 with maps := x1.maps.set m ((p, child) :: x1.maps.getD m []) }
  let x3 : Mem := { x2 with maps := x2.maps.set m ((q, child) :: x2.maps.getD m []) }
  have q2 : Good x2 := g2.note m _
  have q3 : Good x3 := q2.note m _
  have hm2 : x2.maps.getD m [] = (p, child) :: n.children := by
    show (x1.maps.set m _).getD m [] = _
    rw [List.getD_eq_getElem?_getD, List.getElem?_set, if_pos rfl, if_pos hml, hm]; rfl
  have t2 : x2.table = x.table.set v.toNat { n with children := (p, child) :: n.children } := by
    have := note_table g2 g6 g7 ((p, child) :: x1.maps.getD m [])
    rw [show x2.table = _ from this, g3, hm]
    have e1 : n1.parent = n.parent := by rw [← hnode1]; rfl
    have e2 : n1.name = n.name := by rw [← hnode1]; rfl
    rw [e1, e2]
  have t3 : x3.table = x.table.set v.toNat { n with children := (q, child) :: (p, child) :: n.children } := by
    have := note_table q2 (parent := v.toNat) (n := n1) (m := m) g6 g7 ((q, child) :: x2.maps.getD m [])
    rw [show x3.table = _ from this, t2, hm2, List.set_set]
    have e1 : n1.parent = n.parent := by rw [← hnode1]; rfl
    have e2 : n1.name = n.name := by rw [← hnode1]; rfl
    rw [e1, e2]
  let A := appendWrite Node.zero room x3.nodes x3.d ⟨v, p, none⟩
  obtain ⟨p1, p2⟩ := q3.putOnly room ⟨v, p, none⟩
  let x4 : Mem := { x3 with nodes := A.1 }
  have p1 : Good x4 := p1
  have p2 : x4.table = x3.table := p2
  let x5 : Mem := { x4 with d := A.2 }
  obtain ⟨p3, p4⟩ := p1.put room v q
  let B := appendWrite Node.zero room x4.nodes x4.d ⟨v, q, none⟩
  let x6 : Mem := { x4 with nodes := B.1, d := B.2 }
  have p3 : Good x6 := p3
  have p4 : x6.table = x4.table ++ [⟨v, q, []⟩] := p4
  have hzp : Fnames.get (x1.maps.getD m []) p = 0 := by rw [hm]; exact hp
  have hzq : Fnames.get (x1.maps.getD m []) q = 0 := by rw [hm]; exact hq
  have s2 : alone room b.start b.stop 1 (x1, .walk v [q]) = .ok (x1, .look v m q []) := by
    simp only [alone, step, g6, g7, bind, Except.bind]
  have s3 : alone room a.start a.stop 2 (x1, .look v m p []) = .ok (x1, .note v m child p []) := by
    simp only [alone, step, hzp, if_true, bind, Except.bind]; rfl
  have s4 : alone room b.start b.stop 2 (x1, .look v m q []) = .ok (x1, .note v m child q []) := by
    simp only [alone, step, hzq, if_true, bind, Except.bind]; rfl
  have s5 : alone room a.start a.stop 1 (x1, .note v m child p []) = .ok (x2, .take v child p []) := rfl
  have s6 : alone room b.start b.stop 1 (x2, .note v m child q []) = .ok (x3, .take v child q []) := rfl
  have s7 : alone room a.start a.stop 1 (x3, .take v child p []) = .ok (x3, .put v child p [] x3.d) := rfl
  have s8 : alone room b.start b.stop 1 (x3, .take v child q []) = .ok (x3, .put v child q [] x3.d) := rfl
  have s9 : alone room a.start a.stop 3 (x3, .put v child p [] x3.d) = .ok (x5, .flush child) := rfl
  have s10 : alone room b.start b.stop 3 (x5, .put v child q [] x3.d) = .ok (x6, .flush child) := rfl
  refine ⟨_, x6, run_trans (run_first _ g1) (run_trans (run_second _ s2) (run_trans (run_first _ s3) (run_trans (run_second _ s4)
    (run_trans (run_first _ s5) (run_trans (run_second _ s6) (run_trans (run_first _ s7) (run_trans (run_second _ s8)
    (run_trans (run_first _ s9) (run_second _ s10))))))))), p3, ⟨g4.buf, g4.recs, g4.flushed, g4.flushRate, g4.file⟩, ?_⟩
  rw [p4, p2, t3]

/-- down and further down -/
theorem _root_.Dupi.Fnames.addParts_append (xs ys : List Bytes) : ∀ {d t : Fnames.Table} {u v : UInt32}, Fnames.addParts d u xs = .ok (v, t) →
    Fnames.addParts d u (xs ++ ys) = Fnames.addParts t v ys := by
  induction xs with
  | nil =>
    intro d t u v h
    simp only [Fnames.addParts, Except.ok.injEq, Prod.mk.injEq] at h
    obtain ⟨rfl, rfl⟩ := h
    rfl
  | cons p xs ih =>
    intro d t u v h
    rw [List.cons_append, Fnames.addParts]
    rw [Fnames.addParts] at h
    cases hn : d[u.toNat]? with
    | none => rw [hn] at h; cases h
    | some n =>
      rw [hn] at h
      simp only at h ⊢
      by_cases hz : Fnames.get n.children p = 0
      · simp only [hz, if_true] at h ⊢
        exact ih h
      · simp only [hz, if_false] at h ⊢
        exact ih h

/-- what is written does not show the maps -/
theorem _root_.Dupi.Fnames.write_set {t : Fnames.Table} {i : Nat} {n : Fname} (hn : t[i]? = some n) (c c' : List (Bytes × UInt32)) (l : Fnames.Table) :
    Fnames.write (t.set i { n with children := c } ++ l) = Fnames.write (t.set i { n with children := c' } ++ l) := by
  have key : ∀ (t : Fnames.Table) (i : Nat), t[i]? = some n → (t.set i { n with children := c }).flatMap Fnames.writeNode = (t.set i { n with children := c' }).flatMap Fnames.writeNode := by
    intro t
    induction t with
    | nil => intro i hn; simp at hn
    | cons m t ih =>
      intro i hn
      cases i with
      | zero => simp only [List.set_cons_zero, List.flatMap_cons]; rfl
      | succ i => simp only [List.set_cons_succ, List.flatMap_cons]; rw [ih i (by simpa using hn)]
  simp only [Fnames.write, List.length_append, List.length_set, List.flatMap_append, key t i hn]

/-- a file not there has no entry in its directory -/
theorem _root_.Dupi.Fnames.WF.absent {t : Fnames.Table} (h : Fnames.WF t) {v : UInt32} {n : Fname} (hn : t[v.toNat]? = some n) {cs : List Bytes} (hc : Fnames.Comps t v.toNat cs) {p : Bytes}
    (hp : ∀ i, ¬ Fnames.Comps t i (cs ++ [p])) : Fnames.get n.children p = 0 := by
  false_or_by_contra
  rename_i hne
  obtain ⟨c, h1, h2, h3⟩ := h.child _ _ _ hn hne
  refine hp (Fnames.get n.children p).toNat ?_
  rw [← h3]
  rw [h3]
  have := Fnames.Comps.step (d := t) (i := (Fnames.get n.children p).toNat) (n := c) (cs := cs)
    (fun e => hne (UInt32.toNat_inj.mp (by rw [e]; rfl))) h1 (by rw [h2]; exact hc)
  rw [h3] at this
  exact this

/-- Whole calls: both documents get the path of the second. -/
theorem calls_same_path {cwd : Bytes} {x : Mem} (h : Good x) (hw : Fnames.WF x.table) {dirs : List Bytes} {p q : Bytes}
    (ha : Fnames.pathParts (absPath cwd a.path) = dirs ++ [p]) (hb : Fnames.pathParts (absPath cwd b.path) = dirs ++ [q])
    (hp : ∀ i, ¬ Fnames.Comps x.table i (dirs ++ [p])) (hq : ∀ i, ¬ Fnames.Comps x.table i (dirs ++ [q]))
    {P : List Bytes → Prop} (hP : ∀ d, Fnames.WF d → (∀ i cs, Fnames.Comps d i cs → P cs) → d.length < 2 ^ 32)
    (hx : ∀ i cs, Fnames.Comps x.table i cs → P cs) (hd : ∀ cs, cs <+: dirs ++ [q] → P cs) :
    ∃ σ x' i₁ i₂ y, run room (x, start cwd [a, b]) σ = .ok (x', [(a, .done i₁), (b, .done i₂)]) ∧
      Front.adds cwd x.front [{ a with path := b.path }, b] = .ok ([(i₁, a.start, a.dat.getD []), (i₂, b.start, b.dat.getD [])], y) ∧
      x'.front.dmds = y.dmds ∧ x'.file = y.file ∧ Fnames.write x'.table = Fnames.write y.fnames := by
  have hlt0 : 0 < x.table.length := by
    obtain ⟨r, hr, _⟩ := hw.root
    exact (List.getElem?_eq_some_iff.mp hr).1
  obtain ⟨v, t, d1, d2, d3, d4, d5, d6, d7, d8, d9⟩ := Fnames.addParts_room hP dirs (p := 0) (cs := []) hw hlt0 .root hx
    (fun cs hcs => hd cs (by rw [List.nil_append] at hcs; exact hcs.trans (List.prefix_append _ _)))
  rw [List.nil_append] at d4 d9
  obtain ⟨n, hn⟩ : ∃ n, t[v.toNat]? = some n := ⟨_, List.getElem?_eq_getElem d3⟩
  have absent : ∀ r, (∀ i, ¬ Fnames.Comps x.table i (dirs ++ [r])) → ∀ i, ¬ Fnames.Comps t i (dirs ++ [r]) := by
    intro r hr i hc
    rcases d9 i _ hc with h | h
    · exact hr i h
    · have := h.length_le
      rw [List.length_append, List.length_singleton] at this
      omega
  have zp := d2.absent hn d4 (absent p hp)
  have zq := d2.absent hn d4 (absent q hq)
  have again : Fnames.addParts t 0 dirs = .ok (v, t) := by
    obtain ⟨v', e1, e2⟩ := Fnames.addParts_present dirs (p := 0) (cs := []) d2 .root (by show 0 < t.length; omega) (by rw [List.nil_append]; exact d4)
    rw [e1, UInt32.toNat_inj.mp e2]
  -- the calls
  obtain ⟨k1, x1, g1, g2, g3, g4⟩ := alone_down (room := room) (start := a.start) (stop := a.stop) [p] dirs (parent := 0) h d1
  obtain ⟨k2, x2, r1, r2, r3, r4⟩ := alone_down (room := room) (start := b.start) (stop := b.stop) [q] dirs (parent := 0) g2 (by rw [g3]; exact again)
  obtain ⟨σ, x3, q1, q2, q3, q4⟩ := same_path (room := room) (a := a) (b := b) r2 (v := v) (n := n) (by rw [r3]; exact hn) zp zq
  rw [r3] at q1 q4
  generalize hch : UInt32.ofNat t.length = child at q1 q4
  obtain ⟨x4, a1, a2, a3, a4, a5⟩ := alone_add_rec (room := room) (start := a.start) (stop := a.stop) q2 child
  obtain ⟨x5, b1, b2, b3, b4, b5⟩ := alone_add_rec (room := room) (start := b.start) (stop := b.stop) a2 child
  have g := (g4.trans r4).trans q3
  have e1 : x3.front.dmds = x.front.dmds := by simp only [Mem.front, g.flushed, g.flushRate, g.recs, g.buf]
  rw [e1, g.file] at a1 a4 a5
  have hrun := run_trans (run_first (b, .walk 0 (dirs ++ [q])) g1) (run_trans (run_second (a, .walk v [p]) r1) (run_trans q1
    (run_trans (run_first _ a1) (run_second _ b1))))
  -- one after the other
  have hgw : Fnames.WF (Fnames.grow t v n q) := Fnames.grow_wf d2 hn zq d8
  have s1 : Fnames.addParts x.table 0 (dirs ++ [q]) = .ok (child, Fnames.grow t v n q) := by
    rw [Fnames.addParts_append _ _ d1, Fnames.addParts, hn]
    simp only [zq, if_true, Fnames.addParts, hch]
    rw [Fnames.grow, hch]
  have s2 : Fnames.addParts (Fnames.grow t v n q) 0 (dirs ++ [q]) = .ok (child, Fnames.grow t v n q) := by
    obtain ⟨v', e1, e2⟩ := Fnames.addParts_present (dirs ++ [q]) (p := 0) (cs := []) hgw .root (by
      show 0 < (Fnames.grow t v n q).length
      simp [Fnames.grow]) (by rw [List.nil_append]; exact Fnames.grow_comps_new d8 hn d4)
    rw [e1, UInt32.toNat_inj.mp e2, hch]
  refine ⟨List.replicate k1 0 ++ (List.replicate k2 1 ++ (σ ++ (List.replicate 6 0 ++ List.replicate 6 1))), x5,
    (Dmd.add x.front.dmds x.file ⟨child, a.start, a.stop⟩).1, (Dmd.add x4.front.dmds x4.file ⟨child, b.start, b.stop⟩).1,
    ⟨Fnames.grow t v n q, (Dmd.add x4.front.dmds x4.file ⟨child, b.start, b.stop⟩).2.1, (Dmd.add x4.front.dmds x4.file ⟨child, b.start, b.stop⟩).2.2⟩,
    ?_, ?_, b4, b5, ?_⟩
  · rw [show start cwd [a, b] = [(a, .walk 0 (dirs ++ [p])), (b, .walk 0 (dirs ++ [q]))] by simp only [start, List.map_cons, List.map_nil, begin, ha, hb]]
    exact hrun
  · simp only [Front.adds, Front.add, Fnames.addPath, hb, bind, Except.bind, pure, Except.pure]
    rw [show x.front.fnames = x.table from rfl, s1]
    simp only [s2]
    rw [a4, a5]
    rfl
  · rw [b3, a3, q4]
    rw [Fnames.grow, hch]
    exact Fnames.write_set hn _ _ _

end Dupi.Race
