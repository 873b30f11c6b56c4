import Verif.Props.FullSessions
import Verif.Props.LimAny
/-! # C105: Next with slices of any capacities, when there are more documents than document ids -/

namespace Dupi.Props
open Spec

/-- What one call returns: at most as many blots as there is room for, `io.EOF` iff there are none; each blot with
documents shown for at least two of its ids, ones that follow each other in its list, and not more than
there is room for in its slice. -/
structure BitsFull (u : Uni) (c : Config) (docs : List Document) (dst : List Blot) (r : Query.NextResult) : Prop where
  len : r.dst.length = dst.length
  room : r.n ≤ dst.length
  eof : r.eof = true ↔ r.n = 0 ∧ dst ≠ []
  blot : ∀ (i : Nat) bl, i < r.n → r.dst[i]? = some bl → bl.blot.toNat < numBuckets c ∧ 2 ≤ bl.vis.length ∧
    bl.vis.map Doc.noDat <:+: (compress (idsUnder u c docs bl.blot.toNat)).map (firstWith docs) ∧
    ∀ b s, dst[i]? = some b → b.docs = some ⟨[], s⟩ → bl.vis.length ≤ s.length

section
variable {u : Uni} {J : CfgCodec} {srt : Sorter} {c : Config} (hU : Usable J c) (hsrt : IsSorter srt)
include hU hsrt

theorem fullCalls_any {docs : List Document} {x : Index}
    (hx : Holds srt x c.numShards.toNat (fun j q => compress (bucketIds u c docs j q)) (firstMeta docs))
    (grow : Nat → Nat) (ff fuel : Nat) (hff : 2 ^ 32 ≤ ff) : ∀ (dsts : List (List Blot)) (q : QState) (L : List Query.Place),
    Query.LInv x c.numShards.toNat (fun j q => compress (bucketIds u c docs j q)) q L → (∀ dst ∈ dsts, Emptied dst) → Query.wts L + 2 ^ 32 < fuel →
    ∃ rs, nextCalls grow x ff fuel q dsts = .ok rs ∧ List.Forall₂ (BitsFull u c docs) dsts rs ∧ (delivered rs).length ≤ Query.wts L ∧
      (Query.Exh L → ∀ r ∈ rs, r.n = 0) ∧
      ∀ (i j : Nat) dst r r', i < j → dsts[i]? = some dst → rs[i]? = some r → rs[j]? = some r' → r.n < dst.length → r'.n = 0 := by
  intro dsts
  have hn := hU.shards
  have hn' := hU.shardsSmall
  induction dsts with
  | nil => intro q L _ _ _; exact ⟨[], rfl, .nil, Nat.zero_le _, by simp, by simp⟩
  | cons dst dsts ih =>
    intro q L hL hE hfuel
    have hgo := Query.toGo_le q
    obtain ⟨r, e1, e2⟩ := Query.nextLoop_any hsrt hx (by omega) grow hff
      (fun i => (dst[i]?.bind (·.docs)).map fun d => d.spare.length) fuel q L 0 dst hL (by
        intro i b _ hb
        rcases hE dst (by simp) b (List.mem_of_getElem? hb) with e | ⟨s, e⟩
        · exact .inl ⟨e, by simp [hb, e]⟩
        · exact .inr ⟨s, e, by simp [hb, e]⟩) (Nat.zero_le _) (by omega)
    obtain ⟨L', r1, r2, r3, r4⟩ := e2.rest
    obtain ⟨rs, k1, k2, k3, k4, k5⟩ := ih r.state L' r1 (fun d hd => hE d (by simp [hd])) (by omega)
    refine ⟨r :: rs, by simp only [nextCalls, Query.next, e1, bind, Except.bind, k1, pure, Except.pure], .cons ⟨e2.len, e2.hi, e2.eof, ?_⟩ k2, ?_, ?_, ?_⟩
    · intro i bl hi hbl
      obtain ⟨bl', b1, j, b, ids, g1, g2, g3, g4, g5, g6, g7⟩ := e2.new i (Nat.zero_le _) hi
      rw [hbl] at b1; injection b1 with b1; subst b1
      have hlen : bl.vis.length = ids.length := by simpa using congrArg List.length g7
      have h2 : 2 ≤ (compress (bucketIds u c docs j b)).length := by
        have := g4.length_le
        simp only at this
        omega
      have hs := bucket_small g1 g2 (by intro hc; rw [hc] at h2; simp [compress] at h2)
      have hnum : bl.blot.toNat = b * c.numShards.toNat + j := by
        rw [g3]; simp only [UInt32.toNat_ofNat']; omega
      refine ⟨?_, by omega, ?_, ?_⟩
      · rw [hnum, numBuckets]
        have := Nat.mul_le_mul_right c.numShards.toNat (show b ≤ 65535 by omega)
        omega
      · have s1 : (b * c.numShards.toNat + j) % c.numShards.toNat = j := by rw [Nat.mul_add_mod_self_right, Nat.mod_eq_of_lt g1]
        have s2 : (b * c.numShards.toNat + j) / c.numShards.toNat % 65536 = b := by
          rw [Nat.mul_comm, Nat.mul_add_div (by omega), Nat.div_eq_of_lt g1, Nat.add_zero, Nat.mod_eq_of_lt g2]
        have hu := bucket_ids u c docs (b * c.numShards.toNat + j)
        rw [s1, s2] at hu
        rw [g7, hnum, ← hu]
        have hD : ∀ id, Doc.ofMeta (firstMeta docs id) = firstWith docs id := by
          intro id
          unfold firstMeta firstWith metaOf
          split
          · rfl
          · cases docs[id.toNat - 1]? <;> rfl
        simp only [hD]
        exact g4.map _
      · intro b0 s hb0 hs
        have := g6 s.length (by simp [hb0, hs])
        omega
    · rw [count_delivered _ _ (by rw [e2.len]; exact e2.hi)]; omega
    · intro he r' hr'
      rcases List.mem_cons.mp hr' with rfl | hr'
      · exact e2.exh he
      · exact k4 (r4 he) r' hr'
    · intro i j d r' r'' hij h1 h2 h3 h4
      cases j with
      | zero => omega
      | succ j =>
        rw [List.getElem?_cons_succ] at h3
        cases i with
        | zero =>
          simp at h1 h2
          subst h1 h2
          exact k4 (r3 h4) _ (List.mem_of_getElem? h3)
        | succ i => exact k5 i j d r' r'' (by omega) (by simpa using h1) (by simpa using h2) h3 h4

/-- **C105, Next with slices of any capacities.**  After any sessions with any numbers of documents, calls of
`Next` with slices of any capacities on a fresh query all return; each blot is delivered with documents of
at least two of its ids, ones that follow each other in its list, and no more than there is room for;
together no more than `K` are delivered, and none after a call that did not fill all its blots. -/
theorem C105_limited_partial (hw : c.numShatters < 2 ^ 32) {h : Sessions} (hp : FewPaths ((documents h).map fun s => s.path))
    (hb : 23 * numBlots u c (documents h) < 2 ^ 63) (hs : FewUnder u c (laidFrom [] h)) {d : Dir} (hh : History u J c h d) :
    ∃ x q, Index.open J srt d = .ok x ∧ x.startQuery = .ok q ∧ ∃ K : Nat, ∀ grow ff fuel dsts, (∀ dst ∈ dsts, Emptied dst) → 2 ^ 32 ≤ ff → K < fuel →
      ∃ rs, nextCalls grow x ff fuel q dsts = .ok rs ∧ List.Forall₂ (BitsFull u c (laidFrom [] h)) dsts rs ∧ (delivered rs).length ≤ K ∧
        ∀ (i j : Nat) dst r r', i < j → dsts[i]? = some dst → rs[i]? = some r → rs[j]? = some r' → r.n < dst.length → r'.n = 0 := by
  have hf := laid_few hp hb hs
  have hr := History.ring hU hw hh hf
  have hl := laidFrom_low h [] (by intro k s _ hk; simp at hk)
  obtain ⟨x, h1, h2, h3⟩ := full_open hU srt hr hf.paths hf.posts hl
  have hn := hU.shards
  have hn' := hU.shardsSmall
  obtain ⟨q, k1, _⟩ := Query.startQuery_rep hsrt h3 (by omega) (by omega)
  obtain ⟨L, hL⟩ := Query.LInv.start hsrt h3 (by omega) k1 (by omega)
  refine ⟨x, q, h1, k1, Query.wts L + 2 ^ 32, fun grow ff fuel dsts hE hff hfuel => ?_⟩
  obtain ⟨rs, k1, k2, k3, _, k5⟩ := fullCalls_any hU hsrt h3 grow ff fuel hff dsts q L hL hE hfuel
  exact ⟨rs, k1, k2, by omega, k5⟩
end

/-- slices of different capacities -/
theorem C105_limited_nonvacuous : Emptied [⟨0, none⟩, ⟨0, some ⟨[], [⟨[], 0, 0, none⟩, ⟨[], 0, 0, none⟩]⟩⟩, ⟨0, some ⟨[], []⟩⟩] ∧
    FewUnder asciiUni exCmdConfig (laidFrom [] exCmdSessions) := by
  refine ⟨?_, C105_sessions_nonvacuous.2.2.2.2.2.1⟩
  intro b hb
  simp only [List.mem_cons, List.not_mem_nil, or_false] at hb
  rcases hb with rfl | rfl | rfl
  · exact .inl rfl
  · exact .inr ⟨_, rfl⟩
  · exact .inr ⟨_, rfl⟩

end Dupi.Props
