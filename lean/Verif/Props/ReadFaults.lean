import Verif.Proof.ReadFaultsAppend
import Verif.Proof.ReadFaultsQuery
import Verif.Props.Query
import Verif.Props.Shard
/-! # Reads that fail: C61, C62 -/

namespace Dupi.Props
open Spec

/-! ### C61: a failing read is reported -/

/-- **C61**, opening an index.  Whatever files cannot be opened and wherever reading them fails, `OpenIndex` returns an error or
what it returns when nothing fails; and when nothing fails it does not return an error. -/
theorem C61_open_partial (J : CfgCodec) (srt : Sorter) (d : Dir) :
    (∀ φ : OpenFates, φ.Serves d → (∃ e, Index.openS J srt d φ = .error (.err e)) ∨ Index.openS J srt d φ = Index.open J srt d) ∧
    ((OpenFates.fine d).Serves d ∧ ∀ x, Index.open J srt d = .ok x → Index.openS J srt d (.fine d) = .ok x) :=
  ⟨fun _ h => open_sim J srt h, OpenFates.fine_serves d, fun _ h => open_fine J srt h⟩

/-- **C61**, opening a shard to append to it, for files that cannot be read any more once a read has failed: an error or the
state it opens in when nothing fails. -/
theorem C61_append_partial (n : Nat) (d : ShardFiles) (x : ShardIndexer) (h : ShardIndexer.initAppend n d = .ok x) (s : Stream) (hs : Lasting d.iix s) :
    ShardIndexer.initAppendS n s d.post = .ok x ∨ ∃ e, ShardIndexer.initAppendS n s d.post = .error (.err e) :=
  initAppendS_last h hs

/-- **C61** is false for opening a shard to append to it.  After any session, if exactly one read fails, that of the total of the last
bucket, opening succeeds, and when the shard is closed again with nothing added to it, also without an error, the count of that
bucket is 0, however many documents it has. -/
theorem C61_false_append (srt : Sorter) (n : Nat) (h0 : 0 < n) (posts : List (UInt32 × Nat)) (hb : ∀ q ∈ posts, q.2 < n)
    (hlen : ∀ b, (postings posts b).length < 2 ^ 32) (hsz : 23 * posts.length < 2 ^ 63) (e : Err) (he : e ≠ .eof) :
    ∃ d s x d' ix, shardCreate n posts = .ok d ∧ Serves d.iix s ∧ (s.filter fun v => v matches .fail _).length = 1 ∧
      ShardIndexer.initAppendS n s d.post = .ok x ∧ x.close = .ok d' ∧ ShardIndex.init srt n d' = .ok ix ∧ ix.count (n - 1) = .ok 0 := by
  obtain ⟨bs, ps, h1, h2⟩ := shardCreate_closed n posts hb hlen
  have hl := h2.len
  obtain ⟨qs, p, rfl⟩ : ∃ qs p, ps = qs ++ [p] := by
    rcases List.eq_nil_or_concat ps with e | ⟨qs, p, e⟩
    · rw [e] at hl; simp at hl; omega
    · exact ⟨qs, p, by simpa using e⟩
  obtain ⟨x, d', ix, g1, g2, g3, g4⟩ := broken_session srt h2 (Nat.lt_of_le_of_lt h2.size hsz) e
  have hnf : ∀ f : Bytes, (bytesOf f).filter (fun v => v matches .fail _) = [] := by
    intro f; simp [bytesOf]
  have hmem : ∀ e', Ev.fail e' ∈ brokenIix qs p e → e' = e := by
    intro e' hm
    simpa [brokenIix, bytesOf] using hm
  refine ⟨_, brokenIix qs p e, x, d', ix, h1, ⟨?_, ?_, ?_⟩, ?_, g1, g2, g3, ?_⟩
  · rw [brokenIix_content]; exact List.prefix_refl _
  · intro e' hm; rw [hmem e' hm]; exact he
  · intro _; exact brokenIix_content _ _ _
  · simp [brokenIix, List.filter_append, hnf]
  · rw [← hl]; simpa using g4

section
variable {u : Uni} {J : CfgCodec} {srt : Sorter} {c : Config} (hU : Usable J c) (hsrt : IsSorter srt)
include hU hsrt

/-- **C61**, `Get`.  Whichever of its reads fail, `Get` returns an error, or no error and all the documents of the bucket; and
an error only when a read failed. -/
theorem C61_get_partial {h : Sessions} {x : Index} {q : QState} (hr : Reading u J srt c h x q) (hf : Fits u c (documents h))
    (φ : ReadFates) (grow : Nat → Nat) (b : UInt32) (fuel : Nat) (hfuel : (documents h).length < fuel) :
    ∃ r e, Query.getF φ grow x fuel q ⟨b, none⟩ = .ok (r, e) ∧
      (e = none → r.blot = b ∧ r.vis = (found u c (documents h) b.toNat).map Document.shown) ∧ (e ≠ none → ∃ j, φ j ≠ none) := by
  obtain ⟨r, h1, h2, h3⟩ := C21_get hU hsrt hr hf grow b fuel hfuel rfl
  rcases Query.getF_cases φ grow x fuel q ⟨b, none⟩ r h1 with g | ⟨hj, b', e, g⟩
  · exact ⟨r, none, g, fun _ => ⟨h2, h3⟩, fun hc => absurd rfl hc⟩
  · exact ⟨b', some e, g, nofun, fun _ => hj⟩

/-- **C61**, `Next`.  Whichever of its reads fail, the blots `Next` counts are those it returns when nothing fails.  An
error other than `io.EOF` is returned iff a read failed that mattered; without one the results are the same. -/
theorem C61_next_partial {h : Sessions} {x : Index} {q : QState} (hr : Reading u J srt c h x q) (hf : Fits u c (documents h))
    (φ : ReadFates) (grow : Nat → Nat) (ff fuel : Nat) (hff : 2 ^ 32 ≤ ff) (hfuel : 2 ^ 34 < fuel) (dst : List Blot) (hd : ∀ b ∈ dst, b.docs = none) :
    ∃ r o, Query.next grow x ff fuel q dst = .ok r ∧ Query.nextF φ grow x ff fuel q dst = .ok o ∧
      o.n ≤ r.n ∧ (∀ i, i < o.n → o.dst[i]? = r.dst[i]?) ∧
      ((o.err = none ∨ o.err = some .eof) → o.n = r.n ∧ o.dst = r.dst ∧ o.state = r.state ∧ (o.err = some .eof ↔ r.eof = true)) ∧
      (¬ (o.err = none ∨ o.err = some .eof) → ∃ j, φ j ≠ none) := by
  obtain ⟨h1, _⟩ := hr.rep hU hsrt hf
  obtain ⟨E, e1, e2, e3, _⟩ := enumeration hU hsrt hr hf
  have hn := hU.shards
  have hn' := hU.shardsSmall
  have hl := nodup32_length _ e3
  rw [List.length_map] at hl
  have hg := Query.toGo_le q
  obtain ⟨r, a1, a2⟩ := Query.nextLoop_delivers hsrt h1 (by omega) grow hff e1 0 fuel dst
    (fun i b _ hb => hd b (List.mem_of_getElem? hb)) (Nat.zero_le _) (by omega)
  rcases Query.nextLoopF_cases φ grow x ff fuel 0 q 0 dst r a1 with g | ⟨hj, o, e, g, g1, g2, _, g4, g5⟩
  · refine ⟨r, r.out, a1, g, Nat.le_refl _, fun _ _ => rfl, fun _ => ⟨rfl, rfl, rfl, ?_⟩, fun hc => ?_⟩
    · simp only [Query.NextResult.out]; cases r.eof <;> simp
    · exfalso; apply hc; simp only [Query.NextResult.out]; cases r.eof <;> simp
  · refine ⟨r, o, a1, g, g4, g5, fun hc => ?_, fun _ => hj⟩
    rw [g1] at hc
    rcases hc with hc | hc
    · cases hc
    · injection hc with hc; exact absurd hc g2

/-! ### C62: going on after an error -/

omit hU hsrt in
theorem Enumerates.congr {f g : UInt32 → List Doc} : ∀ (dsts : List (List Blot)) (E : List UInt32) (rs : List Query.NextResult), (∀ b ∈ E, f b = g b) →
    Enumerates f E dsts rs → Enumerates g E dsts rs := by
  intro dsts
  induction dsts with
  | nil => intro E rs _ h; cases rs <;> exact h
  | cons dst dsts ih =>
    intro E rs hE h
    cases rs with
    | nil => exact h
    | cons r rs =>
      obtain ⟨h1, h2, h3, h4, h5⟩ := h
      refine ⟨h1, h2, h3, fun i b hi hb => ?_, ih _ _ (fun b hb => hE b (List.mem_of_mem_drop hb)) h5⟩
      rw [← hE b (List.mem_of_getElem? hb)]; exact h4 i b hi hb

/-- the calls after an error -/
theorem broken_calls {h : Sessions} {x : Index} (hx : Holds srt x c.numShards.toNat (bucketIds u c (documents h)) (metaOf (documents h)))
    (hf : Fits u c (documents h)) (grow : Nat → Nat) (ff fuel : Nat) (hff : 2 ^ 32 ≤ ff) {q : QState} {j b : Nat} {E : List (Nat × Nat)} {pre rem : List UInt32}
    (hq : Query.Broken x c.numShards.toNat (bucketIds u c (documents h)) (metaOf (documents h)) q j b E pre rem)
    (hmem : ∀ jb ∈ E, jb.1 < c.numShards.toNat ∧ jb.2 < 65536 ∧ 2 ≤ (bucketIds u c (documents h) jb.1 jb.2).length)
    (hnd : blotNum c.numShards.toNat (j, b) ∉ E.map (blotNum c.numShards.toNat)) (h2 : 2 ≤ rem.length)
    (hfuel : E.length + 1 + c.numShards.toNat + 2 ^ 32 < fuel) (dst : List Blot) (dsts : List (List Blot)) (hne : dst ≠ [])
    (hnil : ∀ d ∈ dst :: dsts, ∀ b ∈ d, b.docs = none) :
    ∃ rs, nextCalls grow x ff fuel q (dst :: dsts) = .ok rs ∧
      Enumerates (fun b' => if b' = blotNum c.numShards.toNat (j, b) then rem.map (fun id => Doc.ofMeta (metaOf (documents h) id))
        else (found u c (documents h) b'.toNat).map Document.shown) (blotNum c.numShards.toNat (j, b) :: E.map (blotNum c.numShards.toNat)) (dst :: dsts) rs := by
  have hn := hU.shards
  have hn' := hU.shardsSmall
  have hg := Query.toGo_le q
  obtain ⟨r, bl, a1, a2, a3, a4, a5, a6, a7, a8, a9⟩ := Query.nextLoop_broken hsrt hx (by omega) grow hff hq h2 fuel dst
    (fun i b _ hb => hnil dst (by simp) b (List.mem_of_getElem? hb)) hne (by omega)
  obtain ⟨rs, k1, k2⟩ := nextCalls_spec hU hsrt hx hf grow ff fuel hff dsts r.state _ a9 (fun jb hjb => hmem jb (List.mem_of_mem_drop hjb))
    (fun d hd => hnil d (by simp [hd])) (by simp; omega)
  refine ⟨r :: rs, by simp only [nextCalls, Query.next, a1, bind, Except.bind, k1, pure, Except.pure], ?_, ?_, a4, ?_, ?_⟩
  · rw [a2]; simp
  · rw [a3]; simp
  · intro i b' hi hb'
    cases i with
    | zero =>
      simp only [List.getElem?_cons_zero, Option.some.injEq] at hb'
      subst hb'
      exact ⟨bl, a5, a6, by simp only [if_true]; exact a7⟩
    | succ i =>
      simp only [List.getElem?_cons_succ] at hb'
      have hm := List.mem_of_getElem? hb'
      rw [List.getElem?_map, Option.map_eq_some_iff] at hb'
      obtain ⟨⟨j', b2⟩, hjb, rfl⟩ := hb'
      obtain ⟨bl', c1, c2, c3⟩ := a8 i j' b2 hi hjb
      refine ⟨bl', c1, c2, ?_⟩
      have hne' : blotNum c.numShards.toNat (j', b2) ≠ blotNum c.numShards.toNat (j, b) := fun hc => hnd (by rw [← hc]; exact hm)
      simp only [if_neg hne']
      rw [c3]
      obtain ⟨m1, m2, m3⟩ := hmem _ (List.mem_of_getElem? hjb)
      simp only at m1 m2 m3
      have hs := bucket_small m1 m2 (by intro hc; rw [hc] at m3; simp at m3)
      have hnum : (blotNum c.numShards.toNat (j', b2)).toNat = b2 * c.numShards.toNat + j' := by
        simp only [blotNum, UInt32.toNat_ofNat']; omega
      rw [← bucketIds_found u c _ hf.ids, hnum]
      have e1 : (b2 * c.numShards.toNat + j') % c.numShards.toNat = j' := by
        rw [Nat.mul_add_mod_self_right, Nat.mod_eq_of_lt m1]
      have e2 : (b2 * c.numShards.toNat + j') / c.numShards.toNat % 65536 = b2 := by
        rw [Nat.mul_comm, Nat.mul_add_div (by omega), Nat.div_eq_of_lt m1, Nat.add_zero, Nat.mod_eq_of_lt m2]
      rw [e1, e2]
  · have hl : 0 < dst.length := List.length_pos_iff.mpr hne
    obtain ⟨m, hm⟩ : ∃ m, dst.length = m + 1 := ⟨dst.length - 1, by omega⟩
    rw [hm, List.drop_succ_cons]
    rw [hm, Nat.add_sub_cancel, List.map_drop] at k2
    refine Enumerates.congr _ _ _ (fun b' hb' => ?_) k2
    rw [if_neg (fun hc => hnd (by rw [← hc]; exact List.mem_of_mem_drop hb'))]

omit hsrt in
theorem docs_of_bucket {h : Sessions} (hf : Fits u c (documents h)) {j b : Nat} (hj : j < c.numShards.toNat) (hb : b < 65536)
    (h2 : 2 ≤ (bucketIds u c (documents h) j b).length) :
    (bucketIds u c (documents h) j b).map (fun id => Doc.ofMeta (metaOf (documents h) id)) =
      (found u c (documents h) (blotNum c.numShards.toNat (j, b)).toNat).map Document.shown := by
  have hn := hU.shards
  have hs := bucket_small hj hb (by intro hc; rw [hc] at h2; simp at h2)
  have hnum : (blotNum c.numShards.toNat (j, b)).toNat = b * c.numShards.toNat + j := by
    simp only [blotNum, UInt32.toNat_ofNat']; omega
  rw [← bucketIds_found u c _ hf.ids, hnum]
  have e1 : (b * c.numShards.toNat + j) % c.numShards.toNat = j := by
    rw [Nat.mul_add_mod_self_right, Nat.mod_eq_of_lt hj]
  have e2 : (b * c.numShards.toNat + j) / c.numShards.toNat % 65536 = b := by
    rw [Nat.mul_comm, Nat.mul_add_div (by omega), Nat.div_eq_of_lt hj, Nat.add_zero, Nat.mod_eq_of_lt hb]
  rw [e1, e2]

/-- **C62**, `Next`.  `E` is what a query without failing reads delivers (C23).  When a call of `Next` fails, all that it counts is
the front of `E`.  Let `b` be the next of `E` and `docs` its documents.  The slice has at that place `b` with the first `m` of these, the last
of which may be blank.  If at least two more are left, the calls made afterwards, whose reads do
not fail, deliver these for `b`, and then all the others of `E` as if nothing had happened. -/
theorem C62_next_partial {h : Sessions} {x : Index} {q : QState} (hr : Reading u J srt c h x q) (hf : Fits u c (documents h)) :
    ∃ E : List UInt32, E.Nodup ∧ (∀ b : UInt32, b ∈ E ↔ b.toNat < numBuckets c ∧ 2 ≤ (found u c (documents h) b.toNat).length) ∧
      ∀ φ grow ff fuel dst o e, 2 ^ 32 ≤ ff → 2 ^ 34 < fuel → (∀ b ∈ dst, b.docs = none) →
        Query.nextF φ grow x ff fuel q dst = .ok o → o.err = some e → e ≠ .eof →
        o.n ≤ E.length ∧ ∀ b rest, E.drop o.n = b :: rest →
          ∃ bl, o.dst[o.n]? = some bl ∧ bl.blot = b ∧
            let docs := (found u c (documents h) b.toNat).map Document.shown
            let m := bl.vis.length
            m ≤ docs.length ∧ (bl.vis = docs.take m ∨ 0 < m ∧ bl.vis = docs.take (m - 1) ++ [⟨[], 0, 0, none⟩]) ∧
            (m + 2 ≤ docs.length → ∀ dst dsts, dst ≠ [] → (∀ d ∈ dst :: dsts, ∀ b ∈ d, b.docs = none) →
              ∃ rs, nextCalls grow x ff fuel o.state (dst :: dsts) = .ok rs ∧
                Enumerates (fun b' => if b' = b then docs.drop m else (found u c (documents h) b'.toNat).map Document.shown) (b :: rest) (dst :: dsts) rs) := by
  obtain ⟨h1, _⟩ := hr.rep hU hsrt hf
  obtain ⟨E, e1, e2, e3, e4, _⟩ := enumeration hU hsrt hr hf
  have hn := hU.shards
  have hn' := hU.shardsSmall
  have hl := nodup32_length _ e3
  rw [List.length_map] at hl
  have hg := Query.toGo_le q
  refine ⟨_, e3, e4, fun φ grow ff fuel dst o e hff hfuel hd hF he hne => ?_⟩
  rcases Query.nextLoopF_left hsrt h1 (by omega) φ grow hff e1 0 fuel 0 dst (fun i b _ hb => hd b (List.mem_of_getElem? hb)) (Nat.zero_le _) (by omega)
    o e hF he hne with ⟨i, j, b, rest, pre, rem, a1, a2, a3, _, bl, a4, a5, a6⟩ | ho
  · rw [Nat.zero_add] at a1
    subst a1
    have hlt : o.n < E.length := by
      apply Nat.lt_of_not_le; intro hc; rw [List.drop_eq_nil_of_le hc] at a2; cases a2
    refine ⟨by simp; omega, ?_⟩
    rw [← List.map_drop, a2]
    intro b' rest' heq
    simp only [List.map_cons, List.cons.injEq] at heq
    obtain ⟨rfl, rfl⟩ := heq
    have hsub : ∀ jb ∈ rest, jb ∈ E := fun jb hjb => List.mem_of_mem_drop (by rw [a2]; simp [hjb])
    obtain ⟨m1, m2, m3⟩ := e2 (j, b) (List.mem_of_mem_drop (by rw [a2]; simp))
    have hnd : blotNum c.numShards.toNat (j, b) ∉ rest.map (blotNum c.numShards.toNat) := by
      have := (e3.sublist (List.drop_sublist o.n _))
      rw [← List.map_drop, a2, List.map_cons, List.nodup_cons] at this
      exact this.1
    have hrl : rest.length ≤ E.length := by
      have := congrArg List.length a2
      simp at this; omega
    have hnil0 : (⟨UInt32.ofNat (b * c.numShards.toNat + j), none⟩ : Blot).vis = [] := rfl
    rw [hnil0] at a6
    simp only [List.nil_append] at a6
    have hm : bl.vis.length = pre.length := by
      rcases a6 with a6 | ⟨pre', id, rfl, a6⟩ <;> rw [a6] <;> simp
    refine ⟨bl, a4, a5, ?_⟩
    simp only [← docs_of_bucket hU hf m1 m2 m3, a3.split, List.map_append, hm]
    refine ⟨by simp, ?_, fun h2 dst dsts hne hnil => ?_⟩
    · rcases a6 with a6 | ⟨pre', id, rfl, a6⟩
      · refine .inl ?_
        rw [a6, List.take_append_of_le_length (by simp), List.take_of_length_le (by simp)]
      · refine .inr ⟨by simp, ?_⟩
        rw [a6, List.map_append, List.append_assoc, List.take_append_of_le_length (by simp), List.take_of_length_le (by simp)]
        rfl
    · have hdrop : (pre.map (fun id => Doc.ofMeta (metaOf (documents h) id)) ++ rem.map (fun id => Doc.ofMeta (metaOf (documents h) id))).drop pre.length =
          rem.map (fun id => Doc.ofMeta (metaOf (documents h) id)) := by
        rw [List.drop_append_of_le_length (by simp), List.drop_of_length_le (by simp)]; rfl
      rw [hdrop]
      exact broken_calls hU hsrt h1 hf grow ff fuel hff a3 (fun jb hjb => e2 jb (hsub jb hjb)) hnd (by simp at h2; omega) (by omega) dst dsts hne hnil
  · refine ⟨by simp; omega, fun b rest hdrop => ?_⟩
    rw [ho, Nat.zero_add, List.drop_eq_nil_of_le (by simp)] at hdrop
    cases hdrop

/-- **C62** is false for `Next`: for the first blot a query delivers, if it has `i + 3` documents or more, one failing read makes `Next` return
that error and no blot, and afterwards, when all reads succeed, the next call returns that blot without its first `i + 1`
documents and no error, and further calls deliver the remaining blots: those documents never come. -/
theorem C62_false_next {h : Sessions} {x : Index} {q : QState} (hr : Reading u J srt c h x q) (hf : Fits u c (documents h)) :
    ∃ E : List UInt32, E.Nodup ∧ (∀ b : UInt32, b ∈ E ↔ b.toNat < numBuckets c ∧ 2 ≤ (found u c (documents h) b.toNat).length) ∧
      ∀ b rest, E = b :: rest → ∀ i, i + 3 ≤ (found u c (documents h) b.toNat).length →
      ∀ grow ff fuel e, 2 ^ 32 ≤ ff → 2 ^ 34 < fuel → ∃ k o,
        Query.nextF (fun j => if j = k then some e else none) grow x ff fuel q [⟨0, none⟩] = .ok o ∧ o.n = 0 ∧ o.err = some (.wrap "docid2Doc" e) ∧
        ∀ dsts, (∀ dst ∈ dsts, ∀ b ∈ dst, b.docs = none) → ∃ r bl rs, nextCalls grow x ff fuel o.state ([⟨0, none⟩] :: dsts) = .ok (r :: rs) ∧
          r.n = 1 ∧ r.eof = false ∧ r.dst = [bl] ∧ bl.blot = b ∧ bl.vis = ((found u c (documents h) b.toNat).map Document.shown).drop (i + 1) ∧
          Enumerates (fun b => (found u c (documents h) b.toNat).map Document.shown) rest dsts rs := by
  obtain ⟨h1, _⟩ := hr.rep hU hsrt hf
  obtain ⟨E, e1, e2, e3, e4, _⟩ := enumeration hU hsrt hr hf
  have hn := hU.shards
  have hn' := hU.shardsSmall
  have hl := nodup32_length _ e3
  rw [List.length_map] at hl
  refine ⟨_, e3, e4, fun b rest hE i hi grow ff fuel e hff hfuel => ?_⟩
  cases E with
  | nil => cases hE
  | cons jb E =>
    obtain ⟨j, b2⟩ := jb
    simp only [List.map_cons, List.cons.injEq] at hE
    obtain ⟨rfl, rfl⟩ := hE
    obtain ⟨m1, m2, m3⟩ := e2 (j, b2) (by simp)
    simp only at m1 m2 m3
    have hdocs := docs_of_bucket hU hf m1 m2 m3
    have hlen : (bucketIds u c (documents h) j b2).length = (found u c (documents h) (blotNum c.numShards.toNat (j, b2)).toNat).length := by
      have := congrArg List.length hdocs; simpa using this
    obtain ⟨f, rfl⟩ : ∃ f, fuel = f + 1 := ⟨fuel - 1, by omega⟩
    obtain ⟨k1, b', q', a1, a2, a3, a4⟩ := Query.nextLoopF_at grow hff e1 i (by omega) f ⟨0, none⟩ rfl []
    refine ⟨k1, _, a4 (fun j => if j = k1 then some e else none) e (fun j hj => if_neg (by omega)) (if_pos rfl), rfl, rfl, fun dsts hnil => ?_⟩
    rw [List.map_cons, List.nodup_cons] at e3
    simp only [List.length_cons] at hl
    obtain ⟨rs, k2, k3⟩ := broken_calls hU hsrt h1 hf grow ff (f + 1) hff a2 (fun jb hjb => e2 jb (by simp [hjb])) e3.1 (by rw [List.length_drop]; omega)
      (by omega) [⟨0, none⟩] dsts (by simp) (by
        intro dst hd b hb
        rcases List.mem_cons.mp hd with rfl | hd
        · rw [List.mem_singleton.mp hb]
        · exact hnil dst hd b hb)
    cases rs with
    | nil => exact k3.elim
    | cons r rs =>
      obtain ⟨c1, c2, c3, c4, c5⟩ := k3
      obtain ⟨bl, d1, d2, d3⟩ := c4 0 (blotNum c.numShards.toNat (j, b2)) (by simp) rfl
      refine ⟨r, bl, rs, k2, by rw [c1]; simp, ?_, ?_, d2, ?_, ?_⟩
      · cases he : r.eof with
        | false => rfl
        | true => have := (c2.mp he).1; cases this
      · cases hd : r.dst with
        | nil => rw [hd] at c3; simp at c3
        | cons a t =>
          rw [hd] at c3 d1
          simp at c3 d1
          rw [c3, d1]
      · rw [d3]; simp only [if_true, List.map_drop, hdocs]
      · refine Enumerates.congr _ _ _ (fun b' hb' => ?_) c5
        have hb' : b' ∈ E.map (blotNum c.numShards.toNat) := by simpa using hb'
        rw [if_neg (fun hc => e3.1 (by rw [← hc]; exact hb'))]

/-- **C62** is false for `Get`: one failing read makes `Get` of a blot that has documents return an error, and `Get` with the same blot again, all
reads succeeding, returns no error and a blot whose first document is none of those of the index. -/
theorem C62_false_get {h : Sessions} {x : Index} {q : QState} (hr : Reading u J srt c h x q) (hf : Fits u c (documents h)) (b : UInt32)
    (hb : found u c (documents h) b.toNat ≠ []) (grow : Nat → Nat) (fuel : Nat) (hfuel : (documents h).length < fuel) (e : Err) :
    ∃ k bl e' bl', Query.getF (fun j => if j = k then some e else none) grow x fuel q ⟨b, none⟩ = .ok (bl, some e') ∧
      Query.getF (fun _ => none) grow x fuel q bl = .ok (bl', none) ∧
      bl'.vis[0]? = some ⟨[], 0, 0, none⟩ ∧ (⟨[], 0, 0, none⟩ : Doc) ∉ (documents h).map Document.shown := by
  obtain ⟨h1, _, _, h2, _⟩ := hr.rep hU hsrt hf
  have hn := hU.shards
  have hn' := hU.shardsSmall
  obtain ⟨hz, s, rs, g1, g2, g3, g4⟩ := Query.get_route h1 (by omega) (by omega) b h2
  have hl : (bucketIds u c (documents h) (b.toNat % c.numShards.toNat) (b.toNat / c.numShards.toNat % 65536)).length < fuel :=
    Nat.lt_of_le_of_lt (idsWith_length _ _ _) hfuel
  have hne : bucketIds u c (documents h) (b.toNat % c.numShards.toNat) (b.toNat / c.numShards.toNat % 65536) ≠ [] := by
    intro hc
    have := bucketIds_length_found u c _ hf.ids b.toNat
    rw [hc] at this
    exact hb (List.length_eq_zero_iff.mp this.symm)
  obtain ⟨id, rem, hids⟩ := List.exists_cons_of_ne_nil hne
  have g3' := g3
  rw [hids] at g3'
  obtain ⟨k1, bl, _, a2, a3, a4⟩ := Query.getLoopF_at grow (x := x) (D := metaOf (documents h)) id rem [] fuel 0 rs ⟨b, none⟩ g3' (by simp) (by simp; omega)
  obtain ⟨bb, ds⟩ := bl
  cases ds with
  | none => simp [Blot.vis] at a3
  | some vs =>
    obtain ⟨v, sp⟩ := vs
    simp only at a2; subst a2
    have hv : v = [Doc.zero] := by simpa [Blot.vis] using a3
    subst hv
    have hlim := Query.getLoop_lim grow bb _ fuel rs [Doc.zero] sp g3 g4 hl
    obtain ⟨bl', hbl', hlim⟩ : ∃ bl', bl'.vis[0]? = some Doc.zero ∧ Query.getLoop grow x true fuel rs ⟨bb, some ⟨[Doc.zero], sp⟩⟩ = .ok bl' := by
      refine ⟨_, ?_, hlim⟩
      simp [Blot.vis]
    have hget : Query.get grow x fuel q ⟨bb, some ⟨[Doc.zero], sp⟩⟩ = .ok bl' := by
      simp only [Query.get, if_neg hz, g1, g2, bind, Except.bind, Option.isSome_some]; exact hlim
    refine ⟨k1, ⟨bb, some ⟨[Doc.zero], sp⟩⟩, .wrap "internal error docid2Doc" (.wrap "docid2Doc" e), bl', ?_, ?_, ?_, ?_⟩
    rotate_left
    · rcases Query.getF_cases (fun _ => none) grow x fuel q _ _ hget with g | ⟨⟨_, hj⟩, _⟩
      · exact g
      · exact absurd rfl hj
    · exact hbl'
    · intro hc
      obtain ⟨d, hd, hd'⟩ := List.mem_map.mp hc
      obtain ⟨cwd, p, hp⟩ := documents_rooted h d hd
      have : d.path = [] := by simpa [Document.shown] using congrArg Doc.path hd'
      obtain ⟨r, hr'⟩ := absPath_cons cwd p
      rw [hp, hr'] at this
      cases this
    · simp only [Query.getF, if_neg hz, g1, g2, bind, Except.bind, Option.isSome_none]
      exact a4 (fun j => if j = k1 then some e else none) e (fun j hj => if_neg (by omega)) (if_pos rfl)

end

/-! ## Non-vacuity -/

/-- opening the example, with a configuration file that breaks off: an error -/
example : ∃ d x, Index.open ⟨fun _ => [], fun _ => .ok exQConfig⟩ mergeSorter d = .ok x ∧
    ∃ φ : OpenFates, φ.Serves d ∧ Index.openS ⟨fun _ => [], fun _ => .ok exQConfig⟩ mergeSorter d φ = .error (.err (.msg "EIO")) := by
  obtain ⟨x, q, ⟨d, hd, ho⟩, _⟩ := exReading
  refine ⟨d, x, ho, ⟨(OpenFates.fine d).op, fun g => if g = .cfg then [.fail (.msg "EIO")] else (OpenFates.fine d).rd g⟩, ?_, ?_⟩
  · intro g b hg
    by_cases hc : g = .cfg
    · simp only [hc, if_true]
      exact ⟨by simp [Stream.content], by simp, by intro hn; exact absurd (by simp) (hn (.msg "EIO"))⟩
    · simp only [hc, if_false]
      exact OpenFates.fine_serves d g b hg
  · unfold Index.openS
    cases h1 : d.read .cfg with
    | error e => simp [Index.open, Config.readFrom, h1, bind, Except.bind] at ho
    | ok cb => simp [Dir.openF, OpenFates.fine, h1, bind, Except.bind, Stream.readAll, fail]

/-- a shard with a nonempty last bucket that loses its count -/
example : (postings [((1 : UInt32), 0), (2, 1), (3, 1)] 1).length = 2 := by decide

/-- three documents with the same words -/
def exThreeHistory : Sessions :=
  [([47], [⟨[112], 0, 6, some [97, 32, 98, 32, 99, 46]⟩, ⟨[113], 0, 6, some [97, 32, 98, 32, 99, 46]⟩, ⟨[114], 0, 6, some [97, 32, 98, 32, 99, 46]⟩])]

theorem exThreeFits : Fits asciiUni exQConfig (documents exThreeHistory) :=
  ⟨by decide, by decide +kernel, by decide +kernel⟩

theorem exThree_found (b : UInt32) (hb : 2 ≤ (found asciiUni exQConfig (documents exThreeHistory) b.toNat).length) :
    0 + 3 ≤ (found asciiUni exQConfig (documents exThreeHistory) b.toNat).length := by
  unfold found at *
  simp only [exThreeHistory, documents, List.flatMap_cons, List.flatMap_nil, List.append_nil, added, List.map_cons, List.map_nil, List.filter_cons, List.filter_nil] at *
  by_cases hB : hasBlot asciiUni exQConfig [97, 32, 98, 32, 99, 46] b.toNat = true
  · simp [hB]
  · simp [hB] at hb

/-- there is a query some of whose documents are lost by an error -/
theorem C62_nonvacuous : ∃ x q, Reading asciiUni ⟨fun _ => [], fun _ => .ok exQConfig⟩ mergeSorter exQConfig exThreeHistory x q ∧
    ∃ b : UInt32, 0 + 3 ≤ (found asciiUni exQConfig (documents exThreeHistory) b.toNat).length ∧ ∃ k o r bl,
      Query.nextF (fun j => if j = k then some (.msg "EIO") else none) (fun n => n) x (2 ^ 32) (2 ^ 35) q [⟨0, none⟩] = .ok o ∧
      o.n = 0 ∧ Query.next (fun n => n) x (2 ^ 32) (2 ^ 35) o.state [⟨0, none⟩] = .ok r ∧ r.n = 1 ∧ r.dst = [bl] ∧ bl.blot = b ∧
      bl.vis = ((found asciiUni exQConfig (documents exThreeHistory) b.toNat).map Document.shown).drop 1 := by
  obtain ⟨d, hd⟩ := History.exists (u := asciiUni) exUsable [47] _ _ exThreeFits
  obtain ⟨x, q, _, hr⟩ := reading_exists exUsable mergeSorter_isSorter hd exThreeFits
  refine ⟨x, q, hr, ?_⟩
  obtain ⟨E, _, hE, hF⟩ := C62_false_next exUsable mergeSorter_isSorter hr exThreeFits
  have hmem : UInt32.ofNat ((fnv32 [99] ^^^ fnv32 [98]).toNat % (3 * 65536)) ∈ E := by
    rw [hE]; decide +kernel
  cases E with
  | nil => simp at hmem
  | cons b rest =>
    have h3 := exThree_found b ((hE b).mp (by simp)).2
    obtain ⟨k, o, g1, g2, _, g4⟩ := hF b rest rfl 0 h3 (fun n => n) (2 ^ 32) (2 ^ 35) (.msg "EIO") (by decide) (by decide)
    obtain ⟨r, bl, rs, c1, c2, _, c3, c4, c5, _⟩ := g4 [] (by simp)
    refine ⟨b, h3, k, o, r, bl, g1, g2, ?_, c2, c3, c4, c5⟩
    simp only [nextCalls] at c1
    cases hn : Query.next (fun n => n) x (2 ^ 32) (2 ^ 35) o.state [⟨0, none⟩] with
    | error e => rw [hn] at c1; cases c1
    | ok r' =>
      rw [hn] at c1
      simp only [bind, Except.bind, pure, Except.pure, Except.ok.injEq, List.cons.injEq] at c1
      rw [c1.1]

end Dupi.Props
