import Verif.Proof.FaultsSession
/-! # The index left by a session in which system calls failed -/

namespace Dupi
open Spec

/-- what a directory holds after a session whose `Add`s and `Close` returned no error; `br j b`: the posting list of bucket
`b` of shard `j` cannot be read to its end -/
structure DirRepF (br : Nat → Nat → Bool) (u : Uni) (J : CfgCodec) (c : Config) (d : Dir) (docs : List Document) : Prop where
  cfg : d .cfg = some (J.enc c ++ [10])
  front : ∃ t fs, d .fnm = some (Fnames.write t) ∧ d .dmd = some ((Dmd.zeroFields :: fs).flatMap Dmd.encode) ∧ MetaRep t fs docs
  sh : ∀ j, j < c.numShards.toNat → ∃ ps f, d (.pos j) = some f ∧ d (.iix j) = some (ps.flatMap ShardIndexer.iixEntry) ∧
    FShardRep (br j) 65536 ⟨ps, f⟩ (postings (shardPosts u c j 1 docs)) ∧ ∀ p ∈ ps, p.posts = []

theorem closeF_rep {br : Nat → Nat → Bool} {u : Uni} {J : CfgCodec} {c : Config} {front : Front} {docs : List Document} (hfr : FrontRep front docs)
    {sh : Nat → FShard} {d d' : Dir} {φ : Fates} (hd : CfgOk J c d)
    (hsh : ∀ j, j < c.numShards.toNat → FShardRep (br j) 65536 (sh j).x (postings (shardPosts u c j 1 docs)))
    (h : Indexer.closeF J c front c.numShards.toNat sh d φ = (true, d')) : DirRepF br u J c d' docs := by
  obtain ⟨fs, hi, hm⟩ := hfr
  obtain ⟨h1, h2⟩ := closeShardsF_spec _ _ (closeF_true (Dmd.close_inv hi) h)
  refine ⟨?_, ⟨front.fnames, fs, ?_, ?_, hm⟩, ?_⟩
  · rw [h2 .cfg (fun j _ => ⟨nofun, nofun⟩)]; have := writeTo_cfg hd; simpa [Dir.set] using this
  · rw [h2 .fnm (fun j _ => ⟨nofun, nofun⟩)]; simp [Dir.set]
  · rw [h2 .dmd (fun j _ => ⟨nofun, nofun⟩)]; simp [Dir.set]
  · intro j hj
    obtain ⟨ps, f, φ, g1, g2, g3⟩ := h1 j hj
    obtain ⟨L, hl, how, hn, hp⟩ := hsh j hj
    have := flushIndF_spec (br j) (postings (shardPosts u c j 1 docs)) (sh j).x.ind [] hl (by simpa [hn] using how) (by simpa using hp) (by simp) g1
    rw [List.nil_append, List.nil_append, hn] at this
    exact ⟨ps, f, g2, g3, this⟩

/-- as `Holds`: each posting list can be read, or read up to some point where an error is returned -/
structure HoldsF (br : Nat → Nat → Bool) (srt : Sorter) (x : Index) (n : Nat) (vals : Nat → Nat → List UInt32) (D : UInt32 → Bytes × UInt32 × UInt32) : Prop where
  len : x.shards.length = n
  sh : ∀ (j : Nat) s, x.shards[j]? = some s → FIndexRep (br j) srt 65536 s (vals j)
  doc : ∀ j q, j < n → q < 65536 → ∀ id ∈ vals j q, x.docid2Doc id = .ok (D id)

theorem indexShards_repF (srt : Sorter) {d : Dir} (br : Nat → Nat → Bool) (vals : Nat → Nat → List UInt32) (n : Nat) : ∀ i,
    (∀ j, i ≤ j → j < i + n → ∃ ps f, d (.pos j) = some f ∧ d (.iix j) = some (ps.flatMap ShardIndexer.iixEntry) ∧
      FShardRep (br j) 65536 ⟨ps, f⟩ (vals j) ∧ (∀ p ∈ ps, p.posts = []) ∧ f.length < 2 ^ 63) →
    ∃ xs, Index.openShards srt d n i = .ok xs ∧ xs.length = n ∧ ∀ (k : Nat) s, xs[k]? = some s → FIndexRep (br (i + k)) srt 65536 s (vals (i + k)) := by
  induction n with
  | zero => intro i _; exact ⟨[], rfl, rfl, by simp⟩
  | succ n ih =>
    intro i h
    obtain ⟨ps, f, h1, h2, h3, h5, h4⟩ := h i (Nat.le_refl _) (by omega)
    obtain ⟨xs, g1, g2, g3⟩ := ih (i + 1) (fun j hj hj' => h j (by omega) (by omega))
    obtain ⟨x, k1, k2⟩ := h3.index h5 h4 srt
    refine ⟨x :: xs, ?_, by simp [g2], ?_⟩
    · simp only [ShardIndex.init, bind, Except.bind, pure, Except.pure] at k1
      simp only [Index.openShards, Dir.read, h1, h2, bind, Except.bind, g1, pure, Except.pure]
      split at k1
      · simp at k1
      · rename_i es he
        rw [he]
        injection k1 with k1
        rw [← k1]
    · intro k s hs
      cases k with
      | zero => simp only [List.getElem?_cons_zero, Option.some.injEq] at hs; subst hs; exact k2
      | succ k =>
        rw [List.getElem?_cons_succ] at hs
        have := g3 k s hs
        rwa [Nat.add_assoc, Nat.add_comm 1 k] at this

theorem FIndexRep.congr {br : Nat → Bool} {srt : Sorter} {n : Nat} {x : ShardIndex} {v w : Nat → List UInt32} (h : FIndexRep br srt n x v) (he : ∀ b, b < n → v b = w b) :
    FIndexRep br srt n x w := by
  refine ⟨h.lenH, h.lenC, fun b hb => by rw [← he b hb]; exact h.counts b hb, h.perm, h.id, fun b hd hh => ?_⟩
  have : b < n := by rw [← h.lenH]; exact (List.getElem?_eq_some_iff.mp hh).1
  rw [← he b this]; exact h.posts b hd hh

theorem openIndex_repF {br : Nat → Nat → Bool} {u : Uni} {J : CfgCodec} {c : Config} (hU : Usable J c) (srt : Sorter) {d : Dir} {docs : List Document}
    (h : DirRepF br u J c d docs) (hf : Fits u c docs) (hr : Rooted docs)
    (hlen : ∀ j f, j < c.numShards.toNat → d (.pos j) = some f → f.length < 2 ^ 63) :
    ∃ x, Index.open J srt d = .ok x ∧ x.config = c ∧ HoldsF br srt x c.numShards.toNat (bucketIds u c docs) (metaOf docs) ∧
      Dmd.numDocs x.dmd = docs.length + 1 := by
  obtain ⟨t, fs, k1, k2, k3⟩ := h.front
  have hids := hf.ids
  have hsz := k3.small hf.paths
  obtain ⟨t', m1, m2⟩ := Fnames.read_write t k3.wf (by omega) k3.names
  obtain ⟨xs, n1, n2, n3⟩ := indexShards_repF srt (d := d) br (fun j => postings (shardPosts u c j 1 docs)) c.numShards.toNat 0
    (fun j _ hj => by
      obtain ⟨ps, f, g1, g2, g3, g4⟩ := h.sh j (by omega)
      exact ⟨ps, f, g1, g2, g3, g4, hlen j f (by omega) g1⟩)
  have hn := hU.shards
  have k4 := k3.sim m2
  refine ⟨⟨c, (Dmd.zeroFields :: fs).flatMap Dmd.encode, t', xs⟩, ?_, rfl, ⟨n2, ?_, ?_⟩, ?_⟩
  · simp only [Index.open, Config.readFrom, Dir.read, h.cfg, hU.codec, hU.check, if_neg (show ¬ c.numShards < 0 by omega),
      k1, k2, m1, n1, bind, Except.bind, pure, Except.pure]
  · intro j s hs
    have hj : j < c.numShards.toNat := by rw [← n2]; exact (List.getElem?_eq_some_iff.mp hs).1
    have := n3 j s hs
    rw [Nat.zero_add] at this
    exact this.congr fun b hb => postings_shardPosts u c j b hj hb docs (by omega)
  · intro j q hj hq id hid
    obtain ⟨i1, i2⟩ := idsWith_mem _ docs 1 (by omega) id hid
    exact docid2Doc_rep k4 hr c xs (by omega) (by omega)
  · show Dmd.numDocs ((Dmd.zeroFields :: fs).flatMap Dmd.encode) = _
    rw [Dmd.numDocs, Dmd.encodeAll_length, Dmd.rcdSize, List.length_cons, k3.len]
    omega

/-! ### Get -/

theorem ReadState.next_stepF {rs : ReadState} {v : UInt32} {vs : List UInt32} {fine : Bool} (h : Delivers rs.file rs.posts (v :: vs) fine) :
    ∃ p, rs.next = .ok (v, { rs with posts := p }) ∧ Delivers rs.file p vs fine := by
  obtain ⟨p, hp, hr⟩ := h.step
  exact ⟨p, by simp [ReadState.next, hp, bind, Except.bind, pure, Except.pure], hr⟩

theorem getLoop_fine (grow : Nat → Nat) {x : Index} {D : UInt32 → Bytes × UInt32 × UInt32} (rem : List UInt32) :
    ∀ (fuel : Nat) (rs : ReadState) (b : Blot), Delivers rs.file rs.posts rem true → (∀ id ∈ rem, x.docid2Doc id = .ok (D id)) → rem.length < fuel →
    ∃ b', Query.getLoop grow x false fuel rs b = .ok b' ∧ b'.blot = b.blot ∧ b'.vis = b.vis ++ rem.map (fun id => Doc.ofMeta (D id)) := by
  induction rem with
  | nil =>
    intro fuel rs b h _ hf
    obtain ⟨f, rfl⟩ : ∃ f, fuel = f + 1 := ⟨fuel - 1, by simp at hf; omega⟩
    have : rs.next = fail .eof := by simp [ReadState.next, h.eof, bind, Except.bind]
    exact ⟨b, by simp [Query.getLoop, this], rfl, by simp⟩
  | cons id rem ih =>
    intro fuel rs b h hD hf
    obtain ⟨f, rfl⟩ : ∃ f, fuel = f + 1 := ⟨fuel - 1, by simp at hf; omega⟩
    obtain ⟨p, h1, h2⟩ := ReadState.next_stepF h
    obtain ⟨b1, g1, g2, g3⟩ := Blot.next_unlim grow b (D id)
    obtain ⟨b', k1, k2, k3⟩ := ih f { rs with posts := p } (b1.setLast (D id)) h2 (fun i hi => hD i (by simp [hi])) (by simp at hf; omega)
    refine ⟨b', ?_, by rw [k2, g3], by rw [k3, g2]; simp⟩
    simp only [Query.getLoop, Bool.false_and, h1, g1, bind, Except.bind, hD id (by simp), k1]
    rfl

theorem getLoop_fails (grow : Nat → Nat) {x : Index} {D : UInt32 → Bytes × UInt32 × UInt32} (rem : List UInt32) :
    ∀ (fuel : Nat) (rs : ReadState) (b : Blot), Delivers rs.file rs.posts rem false → (∀ id ∈ rem, x.docid2Doc id = .ok (D id)) → rem.length < fuel →
    ∃ e, Query.getLoop grow x false fuel rs b = .error e ∧ (e = .panic ∨ ∃ s, e = .err (.msg s)) := by
  induction rem with
  | nil =>
    intro fuel rs b h _ hf
    obtain ⟨f, rfl⟩ : ∃ f, fuel = f + 1 := ⟨fuel - 1, by simp at hf; omega⟩
    obtain ⟨e, he, hne⟩ := h.fails
    have : rs.next = .error e := by simp only [ReadState.next, he, bind, Except.bind]
    refine ⟨e, ?_, hne⟩
    simp only [Query.getLoop, this]
    rcases hne with rfl | ⟨s, rfl⟩ <;> rfl
  | cons id rem ih =>
    intro fuel rs b h hD hf
    obtain ⟨f, rfl⟩ : ∃ f, fuel = f + 1 := ⟨fuel - 1, by simp at hf; omega⟩
    obtain ⟨p, h1, h2⟩ := ReadState.next_stepF h
    obtain ⟨b1, g1, g2, g3⟩ := Blot.next_unlim grow b (D id)
    obtain ⟨e, he, hne⟩ := ih f { rs with posts := p } (b1.setLast (D id)) h2 (fun i hi => hD i (by simp [hi])) (by simp at hf; omega)
    refine ⟨e, ?_, hne⟩
    simp only [Query.getLoop, Bool.false_and, h1, g1, bind, Except.bind, hD id (by simp), he]
    rfl

/-- a blot's shard and bucket -/
theorem get_routeF {br : Nat → Nat → Bool} {srt : Sorter} {x : Index} {n : Nat} {vals : Nat → Nat → List UInt32} {D : UInt32 → Bytes × UInt32 × UInt32}
    (h : HoldsF br srt x n vals D) (h0 : 0 < n) (hn : n < 2 ^ 32) (b : UInt32) {qn : UInt32} (hqn : qn = UInt32.ofNat n) :
    qn ≠ 0 ∧ ∃ s rs ws fine, x.shards[(b % qn).toNat]? = some s ∧ s.readStateFor (b / qn).toUInt16.toNat = .ok rs ∧
      Delivers rs.file rs.posts ws fine ∧ ws <+: vals (b.toNat % n) (b.toNat / n % 65536) ∧
      (fine = true → ws = vals (b.toNat % n) (b.toNat / n % 65536) ∧ br (b.toNat % n) (b.toNat / n % 65536) = false) ∧
      ∀ id ∈ vals (b.toNat % n) (b.toNat / n % 65536), x.docid2Doc id = .ok (D id) := by
  have e : qn.toNat = n := by subst hqn; simp only [UInt32.toNat_ofNat']; omega
  have hz : qn ≠ 0 := by intro hc; rw [hc] at e; simp at e; omega
  have e1 : (b % qn).toNat = b.toNat % n := by rw [UInt32.toNat_mod, e]
  have e2 : (b / qn).toUInt16.toNat = b.toNat / n % 65536 := by rw [UInt32.toNat_toUInt16, UInt32.toNat_div, e]
  have hlt : b.toNat % n < n := Nat.mod_lt _ h0
  obtain ⟨s, hs⟩ : ∃ s, x.shards[b.toNat % n]? = some s := ⟨_, List.getElem?_eq_getElem (by rw [h.len]; exact hlt)⟩
  have hq : b.toNat / n % 65536 < 65536 := Nat.mod_lt _ (by decide)
  have hi := h.sh _ _ hs
  have h1 : s.heads[b.toNat / n % 65536]? = some (s.heads[b.toNat / n % 65536]'(by rw [hi.lenH]; exact hq)) := List.getElem?_eq_getElem _
  have h2 : s.counts[b.toNat / n % 65536]? = some (s.counts[b.toNat / n % 65536]'(by rw [hi.lenC]; exact hq)) := List.getElem?_eq_getElem _
  obtain ⟨ws, fine, g1, g2, g3⟩ := hi.posts _ _ h1
  refine ⟨hz, s, ⟨s.id, b.toNat / n % 65536, 0, s.counts[b.toNat / n % 65536]'(by rw [hi.lenC]; exact hq), Posts.new _, s.file⟩, ws, fine, by rw [e1, hs], ?_, g1, g2, g3, h.doc _ _ hlt hq⟩
  rw [e2, ShardIndex.readStateFor, ShardIndex.readStateForBlotAt, h1, h2]

/-- `Get` on such an index: the right answer or none -/
theorem get_faulty {br : Nat → Nat → Bool} {u : Uni} {c : Config} {srt : Sorter} {x : Index} {docs : List Document} (h0 : 0 < c.numShards.toNat) (hn : c.numShards.toNat < 2 ^ 32)
    (h : HoldsF br srt x c.numShards.toNat (bucketIds u c docs) (metaOf docs)) (grow : Nat → Nat) (b : UInt32) {fuel : Nat} (hfuel : docs.length < fuel)
    {q : QState} (hq : q.n = UInt32.ofNat c.numShards.toNat) :
    ((∃ r, Query.get grow x fuel q ⟨b, none⟩ = .ok r ∧ r.blot = b ∧ r.vis = (bucketIds u c docs (b.toNat % c.numShards.toNat) (b.toNat / c.numShards.toNat % 65536)).map (fun id => Doc.ofMeta (metaOf docs id))) ∧
      br (b.toNat % c.numShards.toNat) (b.toNat / c.numShards.toNat % 65536) = false) ∨
    ∃ e, Query.get grow x fuel q ⟨b, none⟩ = .error e ∧ (e = .panic ∨ ∃ s, e = .err (.msg s)) := by
  obtain ⟨hz, s, rs, ws, fine, g1, g2, g3, g4, g5, g6⟩ := get_routeF h h0 hn b hq
  have hlen : (bucketIds u c docs (b.toNat % c.numShards.toNat) (b.toNat / c.numShards.toNat % 65536)).length < fuel := Nat.lt_of_le_of_lt (idsWith_length _ _ _) hfuel
  cases fine with
  | true =>
    obtain ⟨rfl, hb⟩ := g5 rfl
    obtain ⟨r, k1, k2, k3⟩ := getLoop_fine grow _ fuel rs ⟨b, none⟩ g3 g6 hlen
    refine .inl ⟨⟨r, ?_, k2, by rw [k3]; rfl⟩, hb⟩
    simp only [Query.get, if_neg hz, g1, g2, bind, Except.bind, Option.isSome_none]; exact k1
  | false =>
    obtain ⟨t, ht⟩ := g4
    obtain ⟨e, k1, hne⟩ := getLoop_fails grow _ fuel rs ⟨b, none⟩ g3 (fun id hid => g6 id (by rw [← ht]; simp [hid]))
      (by rw [← ht, List.length_append] at hlen; omega)
    refine .inr ⟨e, ?_, hne⟩
    simp only [Query.get, if_neg hz, g1, g2, bind, Except.bind, Option.isSome_none]; exact k1

end Dupi
