import Verif.Props.ReadFaults
import Verif.Proof.ReadsNext

/-! C110: how often `Get` and `Next` read the files. -/

namespace Dupi.Props
open Spec

section
variable {u : Uni} {J : CfgCodec} {srt : Sorter} {c : Config} (hU : Usable J c) (hsrt : IsSorter srt)
include hU hsrt

/-- what `Get` starts from: a shard's bucket of which nothing has been read -/
theorem getF_route {h : Sessions} {x : Index} {q : QState} (hr : Reading u J srt c h x q) (hf : Fits u c (documents h)) (b : UInt32) {q' : QState} (hq : q'.n = q.n) :
    q'.n ≠ 0 ∧ ∃ s rs, x.shards[(b % q'.n).toNat]? = some s ∧ s.readStateFor (b / q'.n).toUInt16.toNat = .ok rs ∧ rs.posts.pend = 0 ∧
      ∃ ids : List UInt32, PostsRep rs.file rs.posts ids ∧ (∀ id ∈ ids, x.docid2Doc id = .ok (metaOf (documents h) id)) ∧
        ids.length = (found u c (documents h) b.toNat).length := by
  obtain ⟨h1, _, _, h2, _⟩ := hr.rep hU hsrt hf
  have hn := hU.shards
  have hn' := hU.shardsSmall
  obtain ⟨hz, s, rs, g1, g2, g3, g4⟩ := Query.get_route h1 (by omega) (by omega) b (hq.trans h2)
  refine ⟨hz, s, rs, g1, g2, ?_, _, g3, g4, bucketIds_length_found u c _ hf.ids b.toNat⟩
  unfold ShardIndex.readStateFor ShardIndex.readStateForBlotAt at g2
  cases e1 : s.heads[(b / q'.n).toUInt16.toNat]? with
  | none => rw [e1] at g2; cases g2
  | some hd =>
    cases e2 : s.counts[(b / q'.n).toUInt16.toNat]? with
    | none => rw [e1, e2] at g2; cases g2
    | some ct => rw [e1, e2] at g2; injection g2 with g2; subst g2; rfl

omit hU hsrt in
theorem found_length_le (docs : List Document) (hl : docs.length + 1 < 2 ^ 32) (b : Nat) : (found u c docs b).length ≤ docs.length := by
  rw [← bucketIds_length_found u c docs hl b]
  exact idsWith_length _ _ _

/-- **C110**, `Docs` nil.  When the blot has `n` documents, `Get` makes at most `4 * n` calls on the files (`Seek`, `ReadFull`, `ReadAt`), however
large the index: if those numbered below `4 * n` succeed, the outcome is the same whatever would become of the others.
Without documents it makes none. -/
theorem C110_get {h : Sessions} {x : Index} {q : QState} (hr : Reading u J srt c h x q) (hf : Fits u c (documents h))
    (φ : ReadFates) (grow : Nat → Nat) (b : UInt32) (fuel : Nat) (hfuel : (documents h).length < fuel) {q' : QState} (hq : q'.n = q.n)
    (hφ : ∀ j, j < 4 * (found u c (documents h) b.toNat).length → φ j = none) :
    ∃ r, Query.getF φ grow x fuel q' ⟨b, none⟩ = .ok (r, none) ∧ r.blot = b ∧ r.vis = (found u c (documents h) b.toNat).map Document.shown := by
  obtain ⟨r, k1, k2, k3⟩ := C21_get hU hsrt hr hf grow b fuel hfuel hq
  obtain ⟨hz, s, rs, g1, g2, g0, ids, g3, g4, g5⟩ := getF_route hU hsrt hr hf b hq
  have hl : ids.length < fuel := by
    rw [g5]; exact Nat.lt_of_le_of_lt (found_length_le _ hf.ids _) hfuel
  obtain ⟨r', a1, _, _⟩ := Query.getLoopF_reads_unlim grow φ ids fuel 0 rs ⟨b, none⟩ g3 g4 hl
    (fun j hj => hφ j (by rw [g0, g5] at hj; omega))
  have e : Query.getF φ grow x fuel q' ⟨b, none⟩ = .ok (r', none) := by
    simp only [Query.getF, if_neg hz, g1, g2, bind, Except.bind, Option.isSome_none]; exact a1
  rcases Query.getF_cases φ grow x fuel q' ⟨b, none⟩ r k1 with g | ⟨_, b', e', g⟩
  · exact ⟨r, g, k2, k3⟩
  · rw [g] at e; injection e with e; injection e with _ e; cases e

/-- **C110**, with room for `s.length` documents.  When `m > 0` of them are filled in, `Get` makes at most `4 * m + 1` calls, and none when none
are. -/
theorem C110_get_limited {h : Sessions} {x : Index} {q : QState} (hr : Reading u J srt c h x q) (hf : Fits u c (documents h))
    (φ : ReadFates) (grow : Nat → Nat) (b : UInt32) (v s : List Doc) (fuel : Nat) (hfuel : (documents h).length < fuel) {q' : QState} (hq : q'.n = q.n)
    (hφ : 0 < min s.length (found u c (documents h) b.toNat).length →
      ∀ j, j < 4 * min s.length (found u c (documents h) b.toNat).length + 1 → φ j = none) :
    let m := found u c (documents h) b.toNat
    Query.getF φ grow x fuel q' ⟨b, some ⟨v, s⟩⟩ =
      .ok (⟨b, some ⟨v ++ List.zipWith (fun d m => ⟨m.path, m.start, m.stop, d.dat⟩) s m, s.drop m.length⟩⟩, none) := by
  have k1 := C22_get_limited hU hsrt hr hf grow b v s fuel hfuel hq
  intro m
  obtain ⟨hz, sh, rs, g1, g2, g0, ids, g3, g4, g5⟩ := getF_route hU hsrt hr hf b hq
  have hl : ids.length < fuel := by
    rw [g5]; exact Nat.lt_of_le_of_lt (found_length_le _ hf.ids _) hfuel
  have a1 := Query.getLoopF_reads_lim grow φ b ids fuel 0 rs v s g3 g4 hl (by
    intro j hj
    rw [g0, g5] at hj
    unfold Query.limCalls at hj
    by_cases hm : min s.length (found u c (documents h) b.toNat).length = 0
    · rw [hm] at hj; simp at hj
    · rw [if_neg (by omega)] at hj
      exact hφ (by omega) j (by omega))
  have e : Query.getF φ grow x fuel q' ⟨b, some ⟨v, s⟩⟩ = .ok (⟨b, some ⟨v ++ List.zipWith (fun d id => d.fill (metaOf (documents h) id)) s ids, s.drop ids.length⟩⟩, none) := by
    simp only [Query.getF, if_neg hz, g1, g2, bind, Except.bind, Option.isSome_some]; exact a1
  rcases Query.getF_cases φ grow x fuel q' ⟨b, some ⟨v, s⟩⟩ _ k1 with g | ⟨_, b', e', g⟩
  · exact g
  · rw [g] at e; injection e with e; injection e with _ e; cases e

/-- **C110**, the other way: of the calls below `2 * n + 2` (`n > 0` documents) none is idle: if one fails, `Get` returns an error.  With one document
these are all four. -/
theorem C110_least {h : Sessions} {x : Index} {q : QState} (hr : Reading u J srt c h x q) (hf : Fits u c (documents h))
    (φ : ReadFates) (grow : Nat → Nat) (b : UInt32) (fuel : Nat) (hfuel : (documents h).length < fuel) {q' : QState} (hq : q'.n = q.n)
    (hb : found u c (documents h) b.toNat ≠ []) {k : Nat} (hk : k < 2 * (found u c (documents h) b.toNat).length + 2) (hφ : φ k ≠ none) :
    ∃ r e, Query.getF φ grow x fuel q' ⟨b, none⟩ = .ok (r, some e) := by
  -- the first call that fails
  obtain ⟨K, e, h1, h2, h3⟩ : ∃ K e, K ≤ k ∧ (∀ j, j < K → φ j = none) ∧ φ K = some e := by
    clear hk
    induction k using Nat.strongRecOn with
    | ind k ih =>
      by_cases hx : ∃ j, j < k ∧ φ j ≠ none
      · obtain ⟨j, hj, hj'⟩ := hx
        obtain ⟨K, e, a1, a2, a3⟩ := ih j hj hj'
        exact ⟨K, e, by omega, a2, a3⟩
      · obtain ⟨e, he⟩ := Option.ne_none_iff_exists'.mp hφ
        refine ⟨k, e, Nat.le_refl _, fun j hj => ?_, he⟩
        cases hc : φ j with
        | none => rfl
        | some e' => exact absurd ⟨j, hj, by rw [hc]; nofun⟩ hx
  obtain ⟨hz, s, rs, g1, g2, g0, ids, g3, g4, g5⟩ := getF_route hU hsrt hr hf b hq
  have hl : ids.length < fuel := by
    rw [g5]; exact Nat.lt_of_le_of_lt (found_length_le _ hf.ids _) hfuel
  have hne : ids ≠ [] := by
    intro hc
    rw [hc] at g5
    exact hb (List.length_eq_zero_iff.mp g5.symm)
  obtain ⟨b', e', a⟩ := Query.getLoopF_reads_least grow φ e K h2 h3 ids fuel 0 rs ⟨b, none⟩ g3 g4 hl (by omega)
    (by rw [if_pos ⟨hne, g0⟩, g5]; omega)
  refine ⟨b', e', ?_⟩
  simp only [Query.getF, if_neg hz, g1, g2, bind, Except.bind, Option.isSome_none]; exact a

theorem stateAfter_delivers {h : Sessions} {x : Index} (hx : Holds srt x c.numShards.toNat (bucketIds u c (documents h)) (metaOf (documents h)))
    (grow : Nat → Nat) (ff fuel : Nat) (hff : 2 ^ 32 ≤ ff) : ∀ (dsts : List (List Blot)) (q : QState) (E : List (Nat × Nat)) (rs : List Query.NextResult),
    Query.Delivers x c.numShards.toNat (bucketIds u c (documents h)) (metaOf (documents h)) q E →
    (∀ dst ∈ dsts, ∀ b ∈ dst, b.docs = none) → E.length + c.numShards.toNat + 2 ^ 32 < fuel → nextCalls grow x ff fuel q dsts = .ok rs →
    ∃ E', E'.length ≤ E.length ∧ Query.Delivers x c.numShards.toNat (bucketIds u c (documents h)) (metaOf (documents h)) (stateAfter q rs) E' := by
  intro dsts
  have hn := hU.shards
  have hn' := hU.shardsSmall
  induction dsts with
  | nil => intro q E rs hE _ _ hrs; injection hrs with hrs; subst hrs; exact ⟨E, Nat.le_refl _, hE⟩
  | cons dst dsts ih =>
    intro q E rs hE hnil hfuel hrs
    have hgo := Query.toGo_le q
    obtain ⟨r, e1, e2⟩ := Query.nextLoop_delivers hsrt hx (by omega) grow hff hE 0 fuel dst
      (fun i b _ hb => hnil dst (by simp) b (List.mem_of_getElem? hb)) (Nat.zero_le _) (by omega)
    have hrest := e2.rest
    rw [Nat.sub_zero] at hrest
    simp only [nextCalls, Query.next, e1, bind, Except.bind] at hrs
    cases hc : nextCalls grow x ff fuel r.state dsts with
    | error e => rw [hc] at hrs; cases hrs
    | ok rs' =>
      rw [hc] at hrs
      injection hrs with hrs; subst hrs
      obtain ⟨E', k1, k2⟩ := ih r.state (E.drop dst.length) rs' hrest (fun d hd => hnil d (by simp [hd])) (by simp; omega) hc
      exact ⟨E', by simp at k1; omega, k2⟩

/-- **C110**, `Next`.  After any calls of `Next`, another one returning `r` makes at most four calls on the files per document of the blots it
returns, and at most four more per shard when it finds that no blots are left.  (With nil `Docs`.) -/
theorem C110_next {h : Sessions} {x : Index} {q : QState} (hr : Reading u J srt c h x q) (hf : Fits u c (documents h))
    (φ : ReadFates) (grow : Nat → Nat) (ff fuel : Nat) (hff : 2 ^ 32 ≤ ff) (hfuel : 2 ^ 34 < fuel) (dsts : List (List Blot)) {rs : List Query.NextResult}
    (hrs : nextCalls grow x ff fuel q dsts = .ok rs) (dst : List Blot) (hnil : ∀ d ∈ dst :: dsts, ∀ b ∈ d, b.docs = none) :
    ∃ r, Query.next grow x ff fuel (stateAfter q rs) dst = .ok r ∧
      ((∀ j, j < 4 * ((r.dst.take r.n).map fun b => b.vis.length).sum + (if r.n < dst.length then 4 * c.numShards.toNat else 0) → φ j = none) →
        Query.nextF φ grow x ff fuel (stateAfter q rs) dst = .ok ⟨r.n, if r.eof then some .eof else none, r.dst, r.state⟩) := by
  obtain ⟨h1, _⟩ := hr.rep hU hsrt hf
  obtain ⟨E0, e1, _, e3, _⟩ := enumeration hU hsrt hr hf
  have hn := hU.shards
  have hn' := hU.shardsSmall
  have hl := nodup32_length _ e3
  rw [List.length_map] at hl
  obtain ⟨E, hE0, hE⟩ := stateAfter_delivers hU hsrt h1 grow ff fuel hff dsts q E0 rs e1 (fun d hd => hnil d (by simp [hd])) (by omega) hrs
  have hg := Query.toGo_le (stateAfter q rs)
  have hnf : Query.NilFrom 0 dst := fun i b _ hb => hnil dst (by simp) b (List.mem_of_getElem? hb)
  obtain ⟨r, a1, a2⟩ := Query.nextLoop_delivers hsrt h1 (by omega) grow hff hE 0 fuel dst hnf (Nat.zero_le _) (by omega)
  refine ⟨r, a1, fun hφ => ?_⟩
  have hcount := a2.count
  simp only [Nat.zero_add, Nat.sub_zero] at hcount
  have hw : ((r.dst.take r.n).map fun b => b.vis.length) = (E.take dst.length).map fun jb => (bucketIds u c (documents h) jb.1 jb.2).length := by
    apply List.ext_getElem?
    intro i
    by_cases hi : i < r.n
    · obtain ⟨⟨j, b⟩, hjb⟩ : ∃ jb, E[i]? = some jb := ⟨_, List.getElem?_eq_getElem (show i < E.length by omega)⟩
      obtain ⟨bl, b1, _, b3⟩ := a2.new i j b (by omega) hjb
      rw [Nat.zero_add] at b1
      rw [List.getElem?_map, List.getElem?_take_of_lt hi, b1, List.getElem?_map, List.getElem?_take_of_lt (by omega), hjb]
      simp [b3]
    · rw [List.getElem?_eq_none (by simp; omega), List.getElem?_eq_none (by simp; omega)]
  rw [hw] at hφ
  obtain ⟨o, c1, c2⟩ := Query.nextLoopF_reads hsrt h1 (by omega) φ grow hff hE 0 0 fuel dst hnf (Nat.zero_le _) (by omega) (by
    intro j hj
    refine hφ j ?_
    simp only [Nat.sub_zero, Nat.zero_add, Query.weight] at hj
    by_cases hc : E.length < dst.length
    · rw [if_pos hc] at hj; rw [if_pos (by omega)]; omega
    · rw [if_neg hc] at hj; omega)
  rcases Query.nextLoopF_cases φ grow x ff fuel 0 (stateAfter q rs) 0 dst r a1 with g | ⟨_, o', e, g, g1, g2, _⟩
  · exact g
  · rw [g] at c1; injection c1 with c1; subst c1
    rcases c2 with c2 | c2
    · rw [c2] at g1; cases g1
    · rw [c2] at g1; injection g1 with g1; exact absurd g1.symm g2

end

/-! ## Non-vacuity -/

/-- two documents: every call after the eighth may fail, and the second may not -/
example : ∃ x q, Reading asciiUni ⟨fun _ => [], fun _ => .ok exQConfig⟩ mergeSorter exQConfig exHistory x q ∧
    (∃ r, Query.getF (fun k => if k < 8 then none else some (.msg "EIO")) (fun n => n) x 4 q ⟨fnv32 [99] ^^^ fnv32 [98], none⟩ = .ok (r, none) ∧ r.vis.length = 2) ∧
    ∃ r e, Query.getF (fun k => if k = 1 then some (.msg "EIO") else none) (fun n => n) x 4 q ⟨fnv32 [99] ^^^ fnv32 [98], none⟩ = .ok (r, some e) := by
  obtain ⟨x, q, hr⟩ := exReading
  have hl : (found asciiUni exQConfig (documents exHistory) (fnv32 [99] ^^^ fnv32 [98]).toNat).length = 2 := by decide +kernel
  refine ⟨x, q, hr, ?_, ?_⟩
  · obtain ⟨r, h1, _, h3⟩ := C110_get exUsable mergeSorter_isSorter hr exFits (fun k => if k < 8 then none else some (.msg "EIO")) (fun n => n)
      (fnv32 [99] ^^^ fnv32 [98]) 4 (by decide) rfl (fun j hj => if_pos (by rw [hl] at hj; omega))
    exact ⟨r, h1, by rw [h3, List.length_map, hl]⟩
  · exact C110_least exUsable mergeSorter_isSorter hr exFits (fun k => if k = 1 then some (.msg "EIO") else none) (fun n => n)
      (fnv32 [99] ^^^ fnv32 [98]) 4 (by decide) rfl (by intro hc; rw [hc] at hl; cases hl) (k := 1) (by omega) (by simp)

end Dupi.Props
