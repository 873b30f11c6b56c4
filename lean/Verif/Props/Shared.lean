import Verif.Proof.Shared
import Verif.Props.LimAny
/-! # C96: slices of one array

The slices of documents given to one call of `Next` may be windows into one array. -/

namespace Dupi.Props
open Spec

/-- what a client sees when the call returns -/
def inMem (r : Query.NextResultH) : Query.NextResult := ⟨r.n, r.eof, r.dst.map (HBlot.view r.mem), r.state⟩

/-- Consecutive calls of `Next`.  Before each of them the client may do with memory and with the slices as it likes. -/
def nextCallsH (grow : Nat → Nat) (x : Index) (ff fuel : Nat) : QState → List (Mem × List HBlot) → M (List Query.NextResultH)
  | _, [] => .ok []
  | q, call :: calls => do
    let r ← Query.nextH grow x ff fuel q call.1 call.2
    let rs ← nextCallsH grow x ff fuel r.state calls
    return r :: rs

/-- the slices of one call: in memory, and no element belongs to two of them, up to the capacity -/
def Separate (call : Mem × List HBlot) : Prop :=
  (∀ b ∈ call.2, ∀ s, b.docs = some s → s.len ≤ s.cap ∧ s.off + s.cap ≤ call.1.length) ∧
  ∀ (i j : Nat) b b' s s', i ≠ j → call.2[i]? = some b → call.2[j]? = some b' → b.docs = some s → b'.docs = some s' →
    s.off + s.cap ≤ s'.off ∨ s'.off + s'.cap ≤ s.off ∨ s.cap = 0 ∨ s'.cap = 0

theorem Separate.apart {call : Mem × List HBlot} (h : Separate call) : Query.Apart call.1 call.2 := by
  refine ⟨fun b hb s hs => h.1 b hb s hs, ?_⟩
  rintro i j b b' hij hb hb' a ⟨⟨s, hs, g1, g2⟩, s', hs', g3, g4⟩
  have := h.2 i j b b' s s' hij hb hb' hs hs'
  omega

/-- the slices as lists of their own -/
def apiece (calls : List (Mem × List HBlot)) : List (List Blot) := calls.map fun call => call.2.map (HBlot.view call.1)

theorem nextCallsH_view (grow : Nat → Nat) (x : Index) (ff fuel : Nat) : ∀ (calls : List (Mem × List HBlot)) (q : QState), (∀ call ∈ calls, Separate call) →
    (∃ f, nextCallsH grow x ff fuel q calls = .error f ∧ nextCalls grow x ff fuel q (apiece calls) = .error f) ∨
    ∃ rs, nextCallsH grow x ff fuel q calls = .ok rs ∧ nextCalls grow x ff fuel q (apiece calls) = .ok (rs.map inMem) := by
  intro calls
  induction calls with
  | nil => intro q _; exact .inr ⟨[], rfl, rfl⟩
  | cons call calls ih =>
    intro q h
    simp only [nextCallsH, nextCalls, apiece, List.map_cons, bind, Except.bind, pure, Except.pure]
    rcases Query.nextLoopH_view grow x ff fuel q 0 call.1 call.2 (h call (by simp)).apart with ⟨f, g1, g2⟩ | ⟨r, g1, g2, _⟩
    · have e1 : Query.nextH grow x ff fuel q call.1 call.2 = .error f := g1
      have e2 : Query.next grow x ff fuel q (call.2.map (HBlot.view call.1)) = .error f := g2
      rw [e1, e2]
      exact .inl ⟨f, rfl, rfl⟩
    · have e1 : Query.nextH grow x ff fuel q call.1 call.2 = .ok r := g1
      have e2 : Query.next grow x ff fuel q (call.2.map (HBlot.view call.1)) = .ok (inMem r) := g2
      rw [e1, e2]
      rcases ih r.state (fun c hc => h c (by simp [hc])) with ⟨f, g3, g4⟩ | ⟨rs, g3, g4⟩
      · refine .inl ⟨f, ?_, ?_⟩
        · simp only [g3]
        · have g4 : nextCalls grow x ff fuel (inMem r).state (calls.map fun call => call.2.map (HBlot.view call.1)) = .error f := g4
          simp only [g4]
      · refine .inr ⟨r :: rs, ?_, ?_⟩
        · simp only [g3]
        · have g4 : nextCalls grow x ff fuel (inMem r).state (calls.map fun call => call.2.map (HBlot.view call.1)) = .ok (rs.map inMem) := g4
          simp only [g4, List.map_cons]

/-- **C96**: a call of `Next` changes nothing in memory but the elements of the slices it is given. -/
theorem C96_rest (grow : Nat → Nat) (x : Index) (ff fuel : Nat) (q : QState) {call : Mem × List HBlot} (hs : Separate call) {r : Query.NextResultH}
    (h : Query.nextH grow x ff fuel q call.1 call.2 = .ok r) (a : Nat) (ha : a < call.1.length)
    (hno : ∀ b ∈ call.2, ∀ s, b.docs = some s → ¬ (s.off ≤ a ∧ a < s.off + s.cap)) : r.mem[a]? = call.1[a]? := by
  rcases Query.nextLoopH_view grow x ff fuel q 0 call.1 call.2 hs.apart with ⟨f, g1, _⟩ | ⟨r', g1, _, _, _, g2⟩
  · have g1 : Query.nextH grow x ff fuel q call.1 call.2 = .error f := g1
    rw [h] at g1; cases g1
  · have g1 : Query.nextH grow x ff fuel q call.1 call.2 = .ok r' := g1
    rw [h] at g1; injection g1 with g1; subst g1
    exact g2 a ha fun b hb ⟨s, hs, g3, g4⟩ => hno b hb s hs ⟨g3, g4⟩

section
variable {u : Uni} {J : CfgCodec} {srt : Sorter} {c : Config} (hU : Usable J c) (hsrt : IsSorter srt)
include hU hsrt

/-- **C96**, the part that holds.  When no element of memory belongs to two of the slices of one call (up to their capacities), it does not matter whether they are
windows into one array: each call returns, with every blot it fills, at least two documents of this blot that follow each other in the index. -/
theorem C96_separate_partial {h : Sessions} {x : Index} {q : QState} (hr : Reading u J srt c h x q) (hf : Fits u c (documents h)) :
    ∃ K : Nat, ∀ grow ff fuel calls, (∀ call ∈ calls, Separate call) → (∀ call ∈ calls, ∀ b ∈ call.2, ∀ s, b.docs = some s → s.len = 0) → 2 ^ 32 ≤ ff → K < fuel →
      ∃ rs, nextCallsH grow x ff fuel q calls = .ok rs ∧ List.Forall₂ (Bits u c (documents h)) (apiece calls) (rs.map inMem) := by
  obtain ⟨K, hK⟩ := C92_any_partial hU hsrt hr hf
  refine ⟨K, fun grow ff fuel calls hs h0 hff hfuel => ?_⟩
  obtain ⟨rs, k1, k2, _⟩ := hK grow ff fuel (apiece calls) (by
    intro dst hdst b hb
    obtain ⟨call, hcall, rfl⟩ := List.mem_map.mp hdst
    obtain ⟨b', hb', rfl⟩ := List.mem_map.mp hb
    unfold HBlot.view
    cases hd : b'.docs with
    | none => exact .inl rfl
    | some s =>
      refine .inr ⟨win call.1 (s.off + s.len) (s.cap - s.len), ?_⟩
      simp only [Option.map_some, h0 call hcall b' hb' s hd]
      simp [win]) hff hfuel
  rcases nextCallsH_view grow x ff fuel calls q hs with ⟨f, _, g⟩ | ⟨rs', g1, g2⟩
  · rw [k1] at g; cases g
  · rw [k1] at g2; injection g2 with g2
    exact ⟨rs', g1, by rw [← g2]; exact k2⟩

/-- **C96**, the part that holds.  With slices that have room for one more document than there are in the index, a loop of calls until `io.EOF` shows under each blot
with at least two documents just its documents. -/
theorem C96_whole_partial {h : Sessions} {x : Index} {q : QState} (hr : Reading u J srt c h x q) (hf : Fits u c (documents h)) {cap : Nat} (hc : (documents h).length < cap) :
    ∃ K : Nat, ∀ grow ff fuel calls, (∀ call ∈ calls, Separate call) → (∀ call ∈ calls, ∀ b ∈ call.2, ∃ s, b.docs = some s ∧ s.len = 0 ∧ s.cap = cap) → 2 ^ 32 ≤ ff → K < fuel →
      ∃ rs, nextCallsH grow x ff fuel q calls = .ok rs ∧ ((∃ r ∈ rs, r.eof = true) →
        ∀ b : UInt32, b.toNat < numBuckets c → 2 ≤ (found u c (documents h) b.toNat).length →
          deliveredOf (rs.map inMem) b = (found u c (documents h) b.toNat).map Document.shown) := by
  have hle : ∀ b, (found u c (documents h) b).length ≤ (documents h).length := fun b => List.length_filter_le _ _
  by_cases h2 : ∃ b : UInt32, b.toNat < numBuckets c ∧ 2 ≤ (found u c (documents h) b.toNat).length
  · obtain ⟨b0, _, hb0⟩ := h2
    have := hle b0.toNat
    obtain ⟨K, hK⟩ := C26_until_eof_partial hU hsrt hr hf (cap := cap) (by omega) (by
      intro b _ hb
      have := hle b.toNat
      rw [Nat.mod_eq_of_lt (by omega)]
      exact .inl hb)
    obtain ⟨K', hK'⟩ := C96_separate_partial hU hsrt hr hf
    refine ⟨K + K', fun grow ff fuel calls hs h0 hff hfuel => ?_⟩
    obtain ⟨rs, k1, _⟩ := hK' grow ff fuel calls hs (fun call hcall b hb s hs => by
      obtain ⟨s', e1, e2, _⟩ := h0 call hcall b hb
      rw [hs] at e1; injection e1 with e1; subst e1; exact e2) hff (by omega)
    refine ⟨rs, k1, fun ⟨r, hr1, hr2⟩ => ?_⟩
    rcases nextCallsH_view grow x ff fuel calls q hs with ⟨f, g, _⟩ | ⟨rs', g1, g2⟩
    · rw [k1] at g; cases g
    · rw [k1] at g1; injection g1 with g1; subst g1
      refine hK grow ff fuel (apiece calls) _ ?_ hff (by omega) g2 ⟨inMem r, List.mem_map_of_mem hr1, hr2⟩
      intro dst hdst b hb
      obtain ⟨call, hcall, rfl⟩ := List.mem_map.mp hdst
      obtain ⟨b', hb', rfl⟩ := List.mem_map.mp hb
      obtain ⟨s, e1, e2, e3⟩ := h0 call hcall b' hb'
      have := (hs call hcall).1 b' hb' s e1
      refine ⟨win call.1 (s.off + s.len) (s.cap - s.len), ?_, win_length (by omega) |>.trans (by omega)⟩
      unfold HBlot.view
      rw [e1]
      simp only [Option.map_some, e2]
      simp [win]
  · obtain ⟨K', hK'⟩ := C96_separate_partial hU hsrt hr hf
    refine ⟨K', fun grow ff fuel calls hs h0 hff hfuel => ?_⟩
    obtain ⟨rs, k1, _⟩ := hK' grow ff fuel calls hs (fun call hcall b hb s hs => by
      obtain ⟨s', e1, e2, _⟩ := h0 call hcall b hb
      rw [hs] at e1; injection e1 with e1; subst e1; exact e2) hff (by omega)
    exact ⟨rs, k1, fun _ b hb hb2 => absurd ⟨b, hb, hb2⟩ h2⟩

/-- **C96** is false when they do.  In an index with at least two blots that have two documents, let `b0` and `b1` be the first two to be delivered.  Give `Next` two
empty slices, from `a0` and from `a1` on, with room enough.  It fills both, and afterwards, where the windows overlap, the documents of `b1` are shown under `b0`. -/
theorem C96_false {h : Sessions} {x : Index} {q : QState} (hr : Reading u J srt c h x q) (hf : Fits u c (documents h))
    (h2 : ∃ b b' : UInt32, b ≠ b' ∧ b.toNat < numBuckets c ∧ b'.toNat < numBuckets c ∧ 2 ≤ (found u c (documents h) b.toNat).length ∧
      2 ≤ (found u c (documents h) b'.toNat).length) :
    ∃ b0 b1 : UInt32, b0 ≠ b1 ∧ b0.toNat < numBuckets c ∧ b1.toNat < numBuckets c ∧ 2 ≤ (found u c (documents h) b0.toNat).length ∧
      2 ≤ (found u c (documents h) b1.toNat).length ∧
      (∀ b : UInt32, b.toNat < numBuckets c → b ≠ b0 → b ≠ b1 → (found u c (documents h) b.toNat).length ≤ (found u c (documents h) b0.toNat).length ∧
        (found u c (documents h) b.toNat).length ≤ max 1 (found u c (documents h) b1.toNat).length) ∧
      ∀ grow ff fuel (m : Mem) (a0 c0 a1 c1 : Nat) (w w' : UInt32), a0 + c0 ≤ m.length → a1 + c1 ≤ m.length → (documents h).length < c0 → (documents h).length < c1 →
        2 ^ 32 ≤ ff → 2 < fuel →
        ∃ r e0 e1, Query.nextH grow x ff fuel q m [⟨w, some ⟨a0, 0, c0⟩⟩, ⟨w', some ⟨a1, 0, c1⟩⟩] = .ok r ∧ r.n = 2 ∧ r.eof = false ∧
          (inMem r).dst = [e0, e1] ∧ e0.blot = b0 ∧ e1.blot = b1 ∧
          e0.vis.length = (found u c (documents h) b0.toNat).length ∧
          (∀ i, i < (found u c (documents h) b0.toNat).length → (e0.vis[i]?).map Doc.noDat =
            if a1 ≤ a0 + i ∧ a0 + i < a1 + (found u c (documents h) b1.toNat).length then (found u c (documents h) b1.toNat)[a0 + i - a1]?.map Document.shown
            else (found u c (documents h) b0.toNat)[i]?.map Document.shown) ∧
          e1.vis.map Doc.noDat = (found u c (documents h) b1.toNat).map Document.shown := by
  obtain ⟨E, e1, e2, e3, e4, e5⟩ := enumeration hU hsrt hr hf
  obtain ⟨A, B, E', hEE⟩ : ∃ A B E', E = A :: B :: E' := by
    obtain ⟨b, b', hne, g1, g2, g3, g4⟩ := h2
    have m1 := (e4 b).mpr ⟨g1, g3⟩
    have m2 := (e4 b').mpr ⟨g2, g4⟩
    match E, m1, m2 with
    | [], m1, _ => simp at m1
    | [A], m1, m2 =>
      simp only [List.map_cons, List.map_nil, List.mem_singleton] at m1 m2
      exact absurd (m1.trans m2.symm) hne
    | A :: B :: E', _, _ => exact ⟨A, B, E', rfl⟩
  subst hEE
  have hA2 := e2 A (by simp)
  have hB2 := e2 B (by simp)
  have hA4 := (e4 (blotNum c.numShards.toNat A)).mp (by simp)
  have hB4 := (e4 (blotNum c.numShards.toNat B)).mp (by simp)
  have hAn := bucketIds_num (u := u) (c := c) hf.ids hA2.1 hA2.2.1 hA2.2.2
  have hBn := bucketIds_num (u := u) (c := c) hf.ids hB2.1 hB2.2.1 hB2.2.2
  have hAl := bucketIds_numlen (u := u) (c := c) hf.ids hA2.1 hA2.2.1 hA2.2.2
  have hBl := bucketIds_numlen (u := u) (c := c) hf.ids hB2.1 hB2.2.1 hB2.2.2
  have hle : ∀ b, (found u c (documents h) b).length ≤ (documents h).length := fun b => List.length_filter_le _ _
  simp only [List.map_cons, List.pairwise_cons] at e5
  have hnum : ∀ (q : QState) (b : Nat), q.n = UInt32.ofNat c.numShards.toNat → UInt32.ofNat b * q.n + q.i = blotNum c.numShards.toNat (q.i.toNat, b) := by
    intro q b hqn
    apply UInt32.toNat_inj.mp
    rw [hqn]
    simp [blotNum, UInt32.toNat_add, UInt32.toNat_mul]
  refine ⟨blotNum c.numShards.toNat A, blotNum c.numShards.toNat B, ?_, hA4.1, hB4.1, hA4.2, hB4.2, ?_, ?_⟩
  · intro e
    simp only [List.map_cons, List.nodup_cons] at e3
    exact e3.1 (by rw [e]; simp)
  · intro b hb n1 n2
    by_cases hd : 2 ≤ (found u c (documents h) b.toNat).length
    · have hm := (e4 b).mpr ⟨hb, hd⟩
      simp only [List.map_cons, List.mem_cons] at hm
      have hm' : b ∈ E'.map (blotNum c.numShards.toNat) := by
        rcases hm with e | e | e
        · exact absurd e n1
        · exact absurd e n2
        · exact e
      have k1 := e5.1 b (by simp only [List.mem_cons]; exact .inr hm')
      have k2 := e5.2.1 b hm'
      omega
    · omega
  · intro grow ff fuel m a0 c0 a1 c1 w w' h0 h1 hc0 hc1 hff hfuel
    have hlA := hle (blotNum c.numShards.toNat A).toNat
    have hlB := hle (blotNum c.numShards.toNat B).toNat
    cases e1 with
    | @step _ q1 src _ s1 s2 s3 s4 s5 s6 s7 s8 s9 s10 s11 =>
      cases s11 with
      | @step _ q2 src1 _ t1 t2 t3 t4 t5 t6 t7 t8 t9 t10 t11 =>
        obtain ⟨f, rfl⟩ : ∃ f, fuel = f + 1 + 1 + 1 := ⟨fuel - 3, by omega⟩
        simp only at hAn hBn hAl hBl hlA hlB
        obtain ⟨m1, p1, p2, p3, p4⟩ := Query.nextLoopH_step grow (ff := ff) s3 s4 s6 s7 (by omega) s9 (m := m) (a := a0) (c := c0) (k := 0) (bl := w)
          (dst := [⟨w, some ⟨a0, 0, c0⟩⟩, ⟨w', some ⟨a1, 0, c1⟩⟩]) rfl h0 (by omega)
        obtain ⟨m2, r1, r2, r3, r4⟩ := Query.nextLoopH_step grow (ff := ff) t3 t4 t6 t7 (by omega) t9 (m := m1) (a := a1) (c := c1) (k := 1) (bl := w')
          (dst := [⟨UInt32.ofNat src.blot * q.n + q.i, some ⟨a0, (bucketIds u c (documents h) q.i.toNat src.blot).length, c0⟩⟩, ⟨w', some ⟨a1, 0, c1⟩⟩]) rfl
          (by omega) (by omega)
        rw [hnum _ _ s1] at r4 p4
        rw [hnum _ _ t1] at r4
        rw [hAl] at r4 p4 p2 p3
        rw [hBl] at r4 r2 r3
        have hw : (win m2 a0 (found u c (documents h) (blotNum c.numShards.toNat (q.i.toNat, src.blot)).toNat).length).length = _ := win_length (by omega)
        refine ⟨⟨2, false, m2, [⟨blotNum c.numShards.toNat (q.i.toNat, src.blot), some ⟨a0, _, c0⟩⟩, ⟨blotNum c.numShards.toNat (q1.i.toNat, src1.blot), some ⟨a1, (found u c (documents h) (blotNum c.numShards.toNat (q1.i.toNat, src1.blot)).toNat).length, c1⟩⟩], q2⟩,
          _, _, ?_, rfl, rfl, rfl, rfl, rfl, hw, ?_, ?_⟩
        · show Query.nextLoopH grow x ff _ q 0 m _ = _
          rw [p4]
          refine (r4 _).trans ?_
          rfl
        · intro i hi
          show ((win m2 a0 _)[i]?).map Doc.noDat = _
          rw [win_get, if_pos hi]
          by_cases hin : a1 ≤ a0 + i ∧ a0 + i < a1 + (found u c (documents h) (blotNum c.numShards.toNat (q1.i.toNat, src1.blot)).toNat).length
          · rw [if_pos hin]
            have := congrArg (fun l : List Doc => l[a0 + i - a1]?) (r2.trans hBn)
            simp only [List.getElem?_map] at this
            rw [win_get, if_pos (by omega), show a1 + (a0 + i - a1) = a0 + i by omega] at this
            exact this
          · rw [if_neg hin, r3 _ hin]
            have := congrArg (fun l : List Doc => l[i]?) (p2.trans hAn)
            simp only [List.getElem?_map] at this
            rw [win_get, if_pos hi] at this
            exact this
        · exact r2.trans hBn

end

/-! ## Non-vacuity -/

/-- two windows into one array of seven documents, the second one starting with the second element: what is shown under the first blot are not its documents -/
theorem C96_nonvacuous : ∃ x q, Reading asciiUni ⟨fun _ => [], fun _ => .ok (exLimConfig 2)⟩ mergeSorter (exLimConfig 2) exAgainHistory x q ∧
    ∃ r e0 e1, Query.nextH (fun _ => 0) x (2 ^ 32) 3 q (List.replicate 7 Doc.zero) [⟨0, some ⟨0, 0, 6⟩⟩, ⟨0, some ⟨1, 0, 6⟩⟩] = .ok r ∧ r.n = 2 ∧ (inMem r).dst = [e0, e1] ∧
      e0.vis.map Doc.noDat ≠ (found asciiUni (exLimConfig 2) (documents exAgainHistory) e0.blot.toNat).map Document.shown := by
  have hf : Fits asciiUni (exLimConfig 2) (documents exAgainHistory) := ⟨by decide +kernel, by decide +kernel, by decide +kernel⟩
  have hU := exLimUsable 2 (by decide) (by decide)
  obtain ⟨d, hd⟩ := History.exists (u := asciiUni) hU [47] _ [] hf
  obtain ⟨x, q, _, h⟩ := reading_exists hU mergeSorter_isSorter hd hf
  have h : Reading asciiUni ⟨fun _ => [], fun _ => .ok (exLimConfig 2)⟩ mergeSorter (exLimConfig 2) exAgainHistory x q := h
  have lc : (found asciiUni (exLimConfig 2) (documents exAgainHistory) 0x5d7c).length = 5 := by decide +kernel
  have le : (found asciiUni (exLimConfig 2) (documents exAgainHistory) 0x5d7a).length = 5 := by decide +kernel
  have lb : (found asciiUni (exLimConfig 2) (documents exAgainHistory) 0x5d7d).length = 3 := by decide +kernel
  obtain ⟨b0, b1, hne, g0, g1, l0, l1, hmax, hK⟩ := C96_false hU mergeSorter_isSorter h hf ⟨0x5d7c, 0x5d7a, by decide, by decide, by decide, by rw [show (0x5d7c : UInt32).toNat = 0x5d7c by decide]; omega,
    by rw [show (0x5d7a : UInt32).toNat = 0x5d7a by decide]; omega⟩
  have hall := exAgainAll
  have key : ∀ b : UInt32, b = 0x5d7c ∨ b = 0x5d7a → (found asciiUni (exLimConfig 2) (documents exAgainHistory) b.toNat).map Document.shown =
      [⟨[47, 112], 0, 8, none⟩, ⟨[47, 112], 0, 8, none⟩, ⟨[47, 112], 0, 8, none⟩, ⟨[47, 112], 0, 6, none⟩, ⟨[47, 112], 0, 6, none⟩] := by
    rintro b (rfl | rfl)
    · decide +kernel
    · decide +kernel
  have hb : ∀ b : UInt32, b = 0x5d7c ∨ b = 0x5d7a ∨ b = 0x5d7d → (b = 0x5d7c ∨ b = 0x5d7a) ∨ b = 0x5d7d := fun b hb => by
    rcases hb with e | e | e
    · exact .inl (.inl e)
    · exact .inl (.inr e)
    · exact .inr e
  have nb : ∀ b b' : UInt32, (∀ d : UInt32, d.toNat < numBuckets (exLimConfig 2) → d ≠ b → d ≠ b' →
      (found asciiUni (exLimConfig 2) (documents exAgainHistory) d.toNat).length ≤ (found asciiUni (exLimConfig 2) (documents exAgainHistory) b.toNat).length ∧
      (found asciiUni (exLimConfig 2) (documents exAgainHistory) d.toNat).length ≤ max 1 (found asciiUni (exLimConfig 2) (documents exAgainHistory) b'.toNat).length) →
      b ≠ 0x5d7d ∧ b' ≠ 0x5d7d := by
    intro b b' hm
    constructor
    · rintro rfl
      by_cases e : b' = 0x5d7c
      · have := (hm 0x5d7a (by decide) (by decide) (by rw [e]; decide)).1
        rw [show (0x5d7a : UInt32).toNat = 0x5d7a by decide, show (0x5d7d : UInt32).toNat = 0x5d7d by decide] at this
        omega
      · have := (hm 0x5d7c (by decide) (by decide) (fun e' => e e'.symm)).1
        rw [show (0x5d7c : UInt32).toNat = 0x5d7c by decide, show (0x5d7d : UInt32).toNat = 0x5d7d by decide] at this
        omega
    · rintro rfl
      by_cases e : b = 0x5d7c
      · have := (hm 0x5d7a (by decide) (by rw [e]; decide) (by decide)).2
        rw [show (0x5d7a : UInt32).toNat = 0x5d7a by decide, show (0x5d7d : UInt32).toNat = 0x5d7d by decide] at this
        omega
      · have := (hm 0x5d7c (by decide) (fun e' => e e'.symm) (by decide)).2
        rw [show (0x5d7c : UInt32).toNat = 0x5d7c by decide, show (0x5d7d : UInt32).toNat = 0x5d7d by decide] at this
        omega
  have nil_of : ∀ l : List Document, 2 ≤ l.length → l ≠ [] := by
    rintro l hl rfl; simp at hl
  obtain ⟨n0, n1⟩ := nb b0 b1 hmax
  have k0 := key b0 ((hb b0 (hall b0 g0 (nil_of _ l0))).resolve_right n0)
  have k1 := key b1 ((hb b1 (hall b1 g1 (nil_of _ l1))).resolve_right n1)
  obtain ⟨r, e0, e1, r1, r2, _, r3, r4, _, r5, r6, _⟩ := hK (fun _ => 0) (2 ^ 32) 3 (List.replicate 7 Doc.zero) 0 6 1 6 0 0 (by simp) (by simp) (by decide) (by decide)
    (Nat.le_refl _) (by omega)
  have f0 := congrArg List.length k0
  have f1 := congrArg List.length k1
  simp only [List.length_map, List.length_cons, List.length_nil] at f0 f1
  refine ⟨x, q, h, r, e0, e1, r1, r2, r3, fun he => ?_⟩
  rw [r4, k0] at he
  have h3 := r6 3 (by omega)
  rw [if_pos (by omega), ← List.getElem?_map, ← List.getElem?_map, he, k1] at h3
  exact absurd h3 (by decide)

/-- two windows that do not overlap, into one array of 12 documents -/
theorem C96_nonvacuous_separate : ∃ x q, Reading asciiUni ⟨fun _ => [], fun _ => .ok (exLimConfig 2)⟩ mergeSorter (exLimConfig 2) exAgainHistory x q ∧
    Separate (List.replicate 12 Doc.zero, [⟨0, some ⟨0, 0, 6⟩⟩, ⟨0, some ⟨6, 0, 6⟩⟩]) := by
  have hf : Fits asciiUni (exLimConfig 2) (documents exAgainHistory) := ⟨by decide +kernel, by decide +kernel, by decide +kernel⟩
  have hU := exLimUsable 2 (by decide) (by decide)
  obtain ⟨d, hd⟩ := History.exists (u := asciiUni) hU [47] _ [] hf
  obtain ⟨x, q, _, h⟩ := reading_exists hU mergeSorter_isSorter hd hf
  refine ⟨x, q, h, ?_, ?_⟩
  · intro b hb s hs
    simp only [List.mem_cons, List.not_mem_nil, or_false] at hb
    rcases hb with rfl | rfl <;> injection hs with hs <;> subst hs <;> simp
  · intro i j b b' s s' hij hb hb' hs hs'
    match i, j, hij with
    | 0, 0, h => exact absurd rfl h
    | 0, 1, _ =>
      injection hb with hb; injection hb' with hb'; subst hb hb'; injection hs with hs; injection hs' with hs'; subst hs hs'; exact .inl (by decide)
    | 1, 0, _ =>
      injection hb with hb; injection hb' with hb'; subst hb hb'; injection hs with hs; injection hs' with hs'; subst hs hs'; exact .inr (.inl (by decide))
    | 1, 1, h => exact absurd rfl h
    | 0, n + 2, _ => cases hb'
    | 1, n + 2, _ => cases hb'
    | n + 2, _, _ => cases hb

end Dupi.Props
