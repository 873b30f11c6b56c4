import Verif.Proof.Indexer
import Verif.Proof.Query
/-! # Opening an index left by sessions, and starting a query -/

namespace Dupi
open Spec

/-- what queries return for a document -/
def Spec.Document.meta (s : Document) : Bytes × UInt32 × UInt32 := (s.path, s.start, s.stop)

/-- metadata of the document with the given id -/
def metaOf (docs : List Document) (id : UInt32) : Bytes × UInt32 × UInt32 :=
  match docs[id.toNat - 1]? with
  | some s => s.meta
  | none => ([], 0, 0)

theorem metaOf_ids (p : Document → Bool) (a : List Document) : ∀ pre : List Document, (pre ++ a).length + 1 < 2 ^ 32 →
    (idsWith p (pre.length + 1) a).map (metaOf (pre ++ a)) = (a.filter p).map Document.meta := by
  induction a with
  | nil => intro pre _; rfl
  | cons s a ih =>
    intro pre hl
    have e : pre ++ s :: a = (pre ++ [s]) ++ a := by simp
    have hi := ih (pre ++ [s]) (by rw [← e]; exact hl)
    rw [← e, List.length_append, List.length_singleton] at hi
    have hm : metaOf (pre ++ s :: a) (UInt32.ofNat (pre.length + 1)) = s.meta := by
      unfold metaOf
      have : (UInt32.ofNat (pre.length + 1)).toNat - 1 = pre.length := by
        simp only [UInt32.toNat_ofNat']; simp only [List.length_append] at hl; omega
      rw [this, List.getElem?_append_right (Nat.le_refl _), Nat.sub_self]; rfl
    rw [idsWith]
    split
    · rename_i hp; rw [List.filter_cons_of_pos hp, List.map_cons, List.map_cons, hi, hm]
    · rename_i hp; rw [List.filter_cons_of_neg hp, hi]

theorem IndexRep.congr {srt : Sorter} {n : Nat} {x : ShardIndex} {v w : Nat → List UInt32} (h : IndexRep srt n x v) (he : ∀ b, b < n → v b = w b) :
    IndexRep srt n x w := by
  refine ⟨h.lenH, h.lenC, fun b hb => by rw [← he b hb]; exact h.counts b hb, h.perm, fun b hd hh => ?_⟩
  have : b < n := by rw [← h.lenH]; exact (List.getElem?_eq_some_iff.mp hh).1
  rw [← he b this]; exact h.posts b hd hh

/-- every path is an absolute one -/
def Rooted (docs : List Document) : Prop := ∀ s ∈ docs, ∃ cwd p, s.path = absPath cwd p

theorem documents_rooted (h : Sessions) : Rooted (documents h) := by
  intro s hs
  simp only [documents, List.mem_flatMap, added, List.mem_map] at hs
  obtain ⟨⟨cwd, docs⟩, _, d, _, rfl⟩ := hs
  exact ⟨cwd, d.path, (absPath_place _ _).symm⟩

/-- the posting lists of an index of `docs` -/
def bucketIds (u : Uni) (c : Config) (docs : List Document) (j q : Nat) : List UInt32 :=
  idsWith (fun s => hasBlot u c s.dat (q * c.numShards.toNat + j)) 1 docs

theorem indexShards_rep (srt : Sorter) {d : Dir} (vals : Nat → Nat → List UInt32) (n : Nat) : ∀ i,
    (∀ j, i ≤ j → j < i + n → ∃ bs ps, d (.pos j) = some (render 0 bs) ∧ d (.iix j) = some (ps.flatMap ShardIndexer.iixEntry) ∧
      ClosedRep 65536 bs ps (vals j) ∧ (render 0 bs).length < 2 ^ 63) →
    ∃ xs, Index.openShards srt d n i = .ok xs ∧ xs.length = n ∧ ∀ (k : Nat) s, xs[k]? = some s → IndexRep srt 65536 s (vals (i + k)) := by
  induction n with
  | zero => intro i _; exact ⟨[], rfl, rfl, by simp⟩
  | succ n ih =>
    intro i h
    obtain ⟨bs, ps, h1, h2, h3, h4⟩ := h i (Nat.le_refl _) (by omega)
    obtain ⟨xs, g1, g2, g3⟩ := ih (i + 1) (fun j hj hj' => h j (by omega) (by omega))
    obtain ⟨x, k1, k2, _⟩ := h3.index h4 srt
    refine ⟨x :: xs, ?_, by simp [g2], ?_⟩
    · simp only [ShardIndex.init, bind, Except.bind, pure, Except.pure] at k1
      simp only [Index.openShards, Dir.read, h1, h2, bind, Except.bind, g1, pure, Except.pure]
      split at k1
      · simp at k1
      · rename_i es he
        rw [he]
        injection k1 with k1
        rw [← k1]
    · intro k s hs
      cases k with
      | zero => simp only [List.getElem?_cons_zero, Option.some.injEq] at hs; subst hs; exact k2
      | succ k =>
        rw [List.getElem?_cons_succ] at hs
        have := g3 k s hs
        rwa [Nat.add_assoc, Nat.add_comm 1 k] at this

/-- the metadata of a document is found -/
theorem docid2Doc_rep {t : Fnames.Table} {fs : List Fields} {docs : List Document} (k4 : MetaRep t fs docs) (hr : Rooted docs) (c : Config)
    (xs : List ShardIndex) {id : UInt32} (i1 : 1 ≤ id.toNat) (i2 : id.toNat ≤ docs.length) :
    Index.docid2Doc ⟨c, (Dmd.zeroFields :: fs).flatMap Dmd.encode, t, xs⟩ id = .ok (metaOf docs id) := by
  obtain ⟨s, hs⟩ : ∃ s, docs[id.toNat - 1]? = some s := ⟨_, List.getElem?_eq_getElem (by omega)⟩
  obtain ⟨f, hfs⟩ : ∃ f, fs[id.toNat - 1]? = some f := ⟨_, List.getElem?_eq_getElem (by rw [k4.len]; omega)⟩
  have hd := k4.desc _ f s hfs hs
  have hget : (Dmd.zeroFields :: fs)[id.toNat]? = some f := by
    rw [show id.toNat = (id.toNat - 1) + 1 by omega]; exact hfs
  obtain ⟨hlt, hge⟩ := List.getElem?_eq_some_iff.mp hget
  have hl := Dmd.lookup_encode (Dmd.zeroFields :: fs) id hlt
  rw [hge] at hl
  obtain ⟨cwd, p, hp⟩ := hr s (List.mem_of_getElem? hs)
  obtain ⟨r, hr1, hr2⟩ := Fnames.pathParts_abs cwd p
  have ha := k4.wf.abs hd.comps hd.fid
  rw [hp, hr2, join_split, ← hr1, ← hp] at ha
  simp only [Index.docid2Doc, hl, ha, bind, Except.bind, pure, Except.pure, metaOf, hs, Document.meta, hd.start, hd.stop]

/-- an index left by sessions can be opened, and holds the documents -/
theorem openIndex_rep {u : Uni} {J : CfgCodec} {c : Config} (hU : Usable J c) (srt : Sorter) {d : Dir} {docs : List Document}
    (h : DirRep u J c d docs) (hf : Fits u c docs) (hr : Rooted docs) :
    ∃ x, Index.open J srt d = .ok x ∧ x.config = c ∧ Holds srt x c.numShards.toNat (bucketIds u c docs) (metaOf docs) ∧
      Dmd.numDocs x.dmd = docs.length + 1 := by
  obtain ⟨t, fs, k1, k2, k3⟩ := h.front
  have hids := hf.ids
  have hsz := k3.small hf.paths
  obtain ⟨t', m1, m2⟩ := Fnames.read_write t k3.wf (by omega) k3.names
  obtain ⟨xs, n1, n2, n3⟩ := indexShards_rep srt (d := d) (fun j => postings (shardPosts u c j 1 docs)) c.numShards.toNat 0
    (fun j _ hj => h.small hf.posts (by omega))
  have hn := hU.shards
  have k4 := k3.sim m2
  refine ⟨⟨c, (Dmd.zeroFields :: fs).flatMap Dmd.encode, t', xs⟩, ?_, rfl, ⟨n2, ?_, ?_⟩, ?_⟩
  · simp only [Index.open, Config.readFrom, Dir.read, h.cfg, hU.codec, hU.check, if_neg (show ¬ c.numShards < 0 by omega),
      k1, k2, m1, n1, bind, Except.bind, pure, Except.pure]
  · intro j s hs
    have hj : j < c.numShards.toNat := by rw [← n2]; exact (List.getElem?_eq_some_iff.mp hs).1
    have := n3 j s hs
    rw [Nat.zero_add] at this
    exact this.congr fun b hb => postings_shardPosts u c j b hj hb docs (by omega)
  · intro j q hj hq id hid
    obtain ⟨i1, i2⟩ := idsWith_mem _ docs 1 (by omega) id hid
    exact docid2Doc_rep k4 hr c xs (by omega) (by omega)
  · show Dmd.numDocs ((Dmd.zeroFields :: fs).flatMap Dmd.encode) = _
    rw [Dmd.numDocs, Dmd.encodeAll_length, Dmd.rcdSize, List.length_cons, k3.len]
    omega

namespace Query

/-- what a fresh query has to deliver -/
def allDup (x : Index) (vals : Nat → Nat → List UInt32) : List (List Nat) :=
  x.shards.zipIdx.map fun s => s.1.perm.filter fun q => 2 ≤ (vals s.2 q).length

theorem initStates_rep {srt : Sorter} (hsrt : IsSorter srt) (xs : List ShardIndex) : ∀ (k : Nat) (vals : Nat → Nat → List UInt32),
    (∀ (j : Nat) s, xs[j]? = some s → IndexRep srt 65536 s (vals (k + j))) →
    ∃ ss, Index.initStates xs = .ok ss ∧ ss.length = xs.length ∧
      ∀ (j : Nat) s t, xs[j]? = some s → ss[j]? = some t → ShardAt s (vals (k + j)) t (s.perm.filter fun q => 2 ≤ (vals (k + j) q).length) := by
  induction xs with
  | nil => intro k vals _; exact ⟨[], rfl, rfl, by simp⟩
  | cons x xs ih =>
    intro k vals h
    obtain ⟨ss, g1, g2, g3⟩ := ih (k + 1) vals (fun j s hs => by
      have := h (j + 1) s (by simpa using hs)
      rwa [show k + 1 + j = k + (j + 1) by omega])
    have hx := h 0 x rfl
    obtain ⟨q, hq, hlt⟩ := perm_get hsrt hx (a := 0) (by omega)
    obtain ⟨rs, r1, _⟩ := readStateAt_rep hx hq hlt
    refine ⟨some rs :: ss, by simp [Index.initStates, r1, g1, bind, Except.bind, pure, Except.pure], by simp [g2], ?_⟩
    intro j s t hs ht
    cases j with
    | zero =>
      simp only [List.getElem?_cons_zero, Option.some.injEq] at hs ht
      subst hs ht
      exact ⟨0, by omega, r1, by simp⟩
    | succ j =>
      have := g3 j s t (by simpa using hs) (by simpa using ht)
      rwa [show k + 1 + j = k + (j + 1) by omega] at this

/-- a fresh query -/
theorem startQuery_rep {srt : Sorter} (hsrt : IsSorter srt) {x : Index} {n : Nat} {vals : Nat → Nat → List UInt32} {D : UInt32 → Bytes × UInt32 × UInt32}
    (hx : Holds srt x n vals D) (h0 : 0 < n) (hn : n < 2 ^ 32) :
    ∃ q, x.startQuery = .ok q ∧ QInv x n vals q (allDup x vals) ∧ q.nilCount = 0 ∧ q.n = UInt32.ofNat n := by
  obtain ⟨ss, g1, g2, g3⟩ := initStates_rep hsrt x.shards 0 vals (fun j s hs => by rw [Nat.zero_add]; exact hx.sh j s hs)
  refine ⟨QState.setMax ⟨ss, 0, UInt32.ofNat n, 0⟩, by simp [Index.startQuery, g1, bind, Except.bind, pure, Except.pure, hx.len], ?_, rfl, rfl⟩
  refine ⟨rfl, by simp [QState.setMax, g2, hx.len], by simp [allDup, hx.len], ?_, ?_, .inl rfl⟩
  · intro j xs s rem k1 k2 k3
    have := g3 j xs s k1 k2
    rw [Nat.zero_add] at this
    have e : rem = xs.perm.filter fun q => 2 ≤ (vals j q).length := by
      rw [allDup, List.getElem?_map, List.getElem?_zipIdx, k1] at k3
      simp only [Option.map_some, Nat.zero_add, Option.some.injEq] at k3
      exact k3.symm
    rw [e]; exact this
  · show (QState.maxLoop ss 0 0 0).toNat < n
    rcases maxLoop_spec ss 0 0 0 (by rw [g2, hx.len]; omega) with ⟨e, _⟩ | ⟨j, s, e1, e2, _⟩
    · rw [e]; simpa using h0
    · rw [e2]
      have := (List.getElem?_eq_some_iff.mp e1).1
      rw [g2, hx.len] at this; omega

theorem allDup_mem {srt : Sorter} (hsrt : IsSorter srt) {x : Index} {n : Nat} {vals : Nat → Nat → List UInt32} {D : UInt32 → Bytes × UInt32 × UInt32}
    (hx : Holds srt x n vals D) (j b : Nat) : (∃ r, (allDup x vals)[j]? = some r ∧ b ∈ r) ↔ j < n ∧ b < 65536 ∧ 2 ≤ (vals j b).length := by
  constructor
  · rintro ⟨r, hr, hb⟩
    rw [allDup, List.getElem?_map, List.getElem?_zipIdx] at hr
    cases hs : x.shards[j]? with
    | none => simp [hs] at hr
    | some s =>
      simp only [hs, Option.map_some, Nat.zero_add, Option.some.injEq] at hr
      subst hr
      obtain ⟨h1, h2⟩ := List.mem_filter.mp hb
      refine ⟨by rw [← hx.len]; exact (List.getElem?_eq_some_iff.mp hs).1, ?_, by simpa using h2⟩
      rw [(hx.sh j s hs).perm, (hsrt.perm s.counts).mem_iff, List.mem_range, (hx.sh j s hs).lenC] at h1
      exact h1
  · rintro ⟨h1, h2, h3⟩
    obtain ⟨s, hs⟩ : ∃ s, x.shards[j]? = some s := ⟨_, List.getElem?_eq_getElem (by rw [hx.len]; exact h1)⟩
    refine ⟨s.perm.filter fun q => 2 ≤ (vals j q).length, by simp [allDup, List.getElem?_zipIdx, hs], List.mem_filter.mpr ⟨?_, by simpa using h3⟩⟩
    rw [(hx.sh j s hs).perm, (hsrt.perm s.counts).mem_iff, List.mem_range, (hx.sh j s hs).lenC]
    exact h2

theorem allDup_nodup {srt : Sorter} (hsrt : IsSorter srt) {x : Index} {n : Nat} {vals : Nat → Nat → List UInt32} {D : UInt32 → Bytes × UInt32 × UInt32}
    (hx : Holds srt x n vals D) : ∀ r ∈ allDup x vals, r.Nodup := by
  intro r hr
  obtain ⟨⟨s, j⟩, hm, rfl⟩ := List.mem_map.mp hr
  have hs : x.shards[j]? = some s := by
    have := List.mem_zipIdx hm
    simp at this
    rw [this.2]; exact List.getElem?_eq_getElem _
  exact (perm_nodup hsrt (hx.sh j s hs)).filter _

end Query
end Dupi
