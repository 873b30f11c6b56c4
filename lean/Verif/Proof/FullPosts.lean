import Verif.Proof.Full
import Verif.Proof.SchedWrap
import Verif.Proof.Index
import Verif.Proof.CrashAppend
/-! Sessions that use up the document ids: what the shards hold after them, and what queries find. -/

namespace Dupi
open Spec

/-- a further id at the end of a list, if it is not there -/
def pushLast (v : List UInt32) (id : UInt32) : List UInt32 := if v.getLast? = some id then v else v ++ [id]

theorem pushLast_twice (v : List UInt32) (id : UInt32) : pushLast (pushLast v id) id = pushLast v id := by
  have : (pushLast v id).getLast? = some id := by
    unfold pushLast
    split
    · assumption
    · simp
  rw [pushLast, if_pos this]

theorem postings_more (old : List (UInt32 × Nat)) (id : UInt32) (b : Nat) (l : List Nat) :
    postings (old ++ l.map fun x => (id, x)) b = if b ∈ l then pushLast (postings old b) id else postings old b := by
  induction l using snocInd with
  | nil => simp
  | snoc l a ih =>
    rw [List.map_append, ← List.append_assoc]
    simp only [List.map_cons, List.map_nil]
    rw [postings_snoc, ih]
    by_cases ha : a = b
    · subst ha
      by_cases hb : a ∈ l
      · simp only [hb, if_true, List.mem_append, List.mem_singleton, or_true]
        exact pushLast_twice _ _
      · simp only [hb, if_false, if_true, List.mem_append, List.mem_singleton, or_true]
        rfl
    · have : ¬ b = a := fun e => ha e.symm
      simp [ha, this]

/-- the posting list of bucket `q` of shard `j`, for any number of documents -/
theorem postings_any (u : Uni) (c : Config) (j q : Nat) (hj : j < c.numShards.toNat) (hq : q < 65536) (docs : List Document) :
    postings (shardPosts u c j 1 docs) q = compress (idsWith (fun s => hasBlot u c s.dat (q * c.numShards.toNat + j)) 1 docs) := by
  induction docs using snocInd with
  | nil => rfl
  | snoc docs s ih =>
    rw [shardPosts_append, idsWith_append]
    simp only [shardPosts, List.append_nil, docPosts]
    have : (List.map (fun x : UInt32 => (UInt32.ofNat (1 + docs.length), x.toNat / c.numShards.toNat % 65536))
          (List.filter (fun x => decide (x.toNat % c.numShards.toNat = j)) (blotsOf u c s.dat))) =
        (((blotsOf u c s.dat).filter fun x => decide (x.toNat % c.numShards.toNat = j)).map
          fun x => x.toNat / c.numShards.toNat % 65536).map fun x => (UInt32.ofNat (1 + docs.length), x) := by simp
    rw [this, postings_more, ih]
    have hb : (q * c.numShards.toNat + j) % (c.numShards.toNat * 65536) = q * c.numShards.toNat + j := by
      apply Nat.mod_eq_of_lt
      calc q * c.numShards.toNat + j < q * c.numShards.toNat + c.numShards.toNat := by omega
        _ = (q + 1) * c.numShards.toNat := by rw [Nat.add_mul]; omega
        _ ≤ 65536 * c.numShards.toNat := Nat.mul_le_mul_right _ (by omega)
        _ = _ := Nat.mul_comm _ _
    have hiff : q ∈ List.map (fun x : UInt32 => x.toNat / c.numShards.toNat % 65536)
          (List.filter (fun x => decide (x.toNat % c.numShards.toNat = j)) (blotsOf u c s.dat)) ↔
        hasBlot u c s.dat (q * c.numShards.toNat + j) = true := by
      simp only [hasBlot, List.any_eq_true, decide_eq_true_eq, List.mem_map, List.mem_filter, hb, mod_mul_split _ _ _ _ hj, and_assoc]
    simp only [idsWith]
    by_cases h : hasBlot u c s.dat (q * c.numShards.toNat + j) = true
    · rw [if_pos (hiff.mpr h), if_pos h, compress_snoc]; rfl
    · rw [if_neg (fun e => h (hiff.mp e)), if_neg h, List.append_nil]

/-- the length of the longest posting list fits the counters -/
def ShortLists (u : Uni) (c : Config) (docs : List Document) : Prop :=
  ∀ j q, j < c.numShards.toNat → q < 65536 → (compress (idsWith (fun s => hasBlot u c s.dat (q * c.numShards.toNat + j)) 1 docs)).length < 2 ^ 32

theorem ShortLists.postings {u : Uni} {c : Config} {docs : List Document} (h : ShortLists u c docs) {j : Nat} (hj : j < c.numShards.toNat) (b : Nat) :
    (postings (shardPosts u c j 1 docs) b).length < 2 ^ 32 := by
  by_cases hb : b < 65536
  · rw [postings_any u c j b hj hb docs]
    exact h j b hj hb
  · have : (shardPosts u c j 1 docs).filter (fun p => decide (p.2 = b)) = [] := by
      rw [List.filter_eq_nil_iff]
      intro p hp
      have := shardPosts_bucket u c j docs 1 p hp
      simp; omega
    simp [Spec.postings, this, compress]

/-- `IndexerRep` without a limit on the number of documents -/
structure RingRep (u : Uni) (c : Config) (x : Indexer) (docs : List Document) : Prop where
  cfg : x.config = c
  front : FrontRing x.front docs
  nw : x.blotters.length = c.numShatters.toNat
  bl : ∀ b ∈ x.blotters, ∃ l, BlotRepL b c.blotConfig.seqLen.toNat c.blotConfig.interleave.toNat l
  nsh : x.shards.length = c.numShards.toNat
  sh : ∀ (j : Nat) s, x.shards[j]? = some s → ShardRep 65536 s (postings (shardPosts u c j 1 docs))

theorem IndexerRep.ring {u : Uni} {c : Config} {x : Indexer} {docs : List Document} (h : IndexerRep u c x docs) : RingRep u c x docs := by
  obtain ⟨fs, hd, hm⟩ := h.front
  exact ⟨h.cfg, ⟨fs, hd.ring, hm⟩, h.nw, h.bl, h.nsh, h.sh⟩

theorem last_of_ring {t : Dmd.Adder} {file : Option Bytes} {f : Fields} {fs : List Fields} (h : Dmd.Ring t file (f :: fs)) :
    Dmd.last t = UInt32.ofNat fs.length := by
  obtain ⟨_, done, h1, _, h3, _⟩ := h
  have hl := congrArg List.length h1
  simp only [List.length_append, List.length_cons] at hl
  have e : UInt32.ofNat done.length + UInt32.ofNat t.buf.length = UInt32.ofNat fs.length + 1 := by
    rw [← UInt32.ofNat_add, ← hl, UInt32.ofNat_add]; rfl
  rw [Dmd.last, h3, e]
  grind

/-- `sessionEnv` for any number of documents -/
def fullEnv {u : Uni} {J : CfgCodec} {c : Config} {x : Indexer} {docs : List Document} (hU : Usable J c) (h : RingRep u c x docs)
    (new : List Doc) (hw : c.numShatters < 2 ^ 32) : Sched.Wrap.Env Blotter ShardIndexer (UInt32 × Bytes) Post where
  P := x.params u
  b0 := fun w => x.blotters.getD w (.circ ⟨[], 0, 0⟩)
  s0 := fun j => x.shards.getD j ⟨[], []⟩
  base := docs.length
  small := by
    show x.blotters.length < _
    rw [h.nw]; omega
  docs := reqs (docs.length + 1) new
  out := fun did d j => outPosts u c did d.2 j
  Iw := fun b => ∃ l, BlotRepL b c.blotConfig.seqLen.toNat c.blotConfig.interleave.toNat l
  iw0 := by
    intro w hw
    change w < x.blotters.length at hw
    rw [List.getD_eq_getElem?_getD, List.getElem?_eq_getElem hw]
    exact h.bl _ (List.getElem_mem hw)
  hcompute := by
    rintro b did ⟨off, dat⟩ ⟨l, hl⟩
    have hn := h.nsh
    have h1 := hU.shards
    have h2 := hU.shardsSmall
    obtain ⟨b', g1, g2⟩ := compute_spec u _ _ x.shards.length (by omega) (by omega) b l hl did off dat
    refine ⟨b', ?_, _, g2⟩
    simp only [Indexer.params, h.cfg, hU.cons.seqLen_eq, g1, bind, Except.bind, pure, Except.pure]
    simp only [outPosts, blotsOf_eq, ← hn]
  ids := by
    intro k r hr
    rw [reqs_getElem, Option.map_eq_some_iff] at hr
    obtain ⟨d, hd', rfl⟩ := hr
    show UInt32.ofNat (docs.length + 1 + k) = _
    congr 1; omega

section
variable {u : Uni} {J : CfgCodec} {c : Config} {x : Indexer} {docs : List Document} (hU : Usable J c) (h : RingRep u c x docs)
  (cwd : Bytes) (new : List Doc) (hw : c.numShatters < 2 ^ 32) (hs : ShortLists u c (docs ++ added cwd new))

theorem fullEnv_posts (j : Nat) (hj : j < c.numShards.toNat) :
    ((fullEnv hU h new hw).batches (docs.length + new.length) j).flatten.map serveBucket = shardPosts u c j (docs.length + 1) (added cwd new) := by
  have := hU.shardsSmall
  rw [Sched.Wrap.Env.batches_take _ _ _ (by show _ ≤ docs.length + (reqs _ _).length; rw [reqs_length])]
  show (List.map (fun x => outPosts u c x.1 x.2.2 j) (List.take (docs.length + new.length - docs.length) (reqs (docs.length + 1) new))).flatten.map serveBucket = _
  rw [Nat.add_sub_cancel_left, show new.length = (reqs (docs.length + 1) new).length from (reqs_length _ _).symm, List.take_length, reqs_posts u c j hj (by omega) cwd]

include hs in
theorem full_shard (j : Nat) (hj : j < c.numShards.toNat) :
    ∃ y, Sched.serveAll (x.params u).serve (x.shards.getD j ⟨[], []⟩) ((fullEnv hU h new hw).batches (docs.length + new.length) j).flatten = .ok y ∧
      ShardRep 65536 y (postings (shardPosts u c j 1 (docs ++ added cwd new))) := by
  have hjx : j < x.shards.length := by rw [h.nsh]; exact hj
  have hsh := h.sh j _ (List.getElem?_eq_getElem hjx)
  rw [show (x.params u).serve = fun s p => let (d, b) := serveBucket p; s.add d b from rfl, serveAll_addAll,
    fullEnv_posts hU h cwd new hw j hj, List.getD_eq_getElem?_getD, List.getElem?_eq_getElem hjx, Option.getD_some]
  have e : shardPosts u c j 1 (docs ++ added cwd new) =
      shardPosts u c j 1 docs ++ shardPosts u c j (docs.length + 1) (added cwd new) := by
    rw [shardPosts_append, Nat.add_comm]
  rw [e]
  apply hsh.addAll
  · exact shardPosts_bucket u c j _ _
  · intro b
    rw [← e]
    exact hs.postings hj b

include hs in
theorem fullEnv_serves : (fullEnv hU h new hw).Serves := by
  intro j hj
  have hj : j < c.numShards.toNat := by rw [← h.nsh]; exact hj
  obtain ⟨y, hy, _⟩ := full_shard hU h cwd new hw hs j hj
  refine ⟨y, ?_⟩
  show Sched.serveAll (x.params u).serve (x.shards.getD j ⟨[], []⟩) ((fullEnv hU h new hw).batches (docs.length + (reqs _ _).length) j).flatten = .ok y
  rw [reqs_length]; exact hy

theorem fullEnv_inv {k : Nat} {t : Sched.St Blotter ShardIndexer (UInt32 × Bytes) Post}
    (ht : Sched.Steps (x.params u) k (x.start (reqs (docs.length + 1) new)) t) : ∃ M, Sched.Wrap.Inv (fullEnv hU h new hw) M t := by
  refine Sched.Wrap.reach (Γ := fullEnv hU h new hw) ht (M := docs.length) ?_
  have e : Dmd.last x.front.dmds = UInt32.ofNat docs.length := by
    obtain ⟨fs, hd, hm⟩ := h.front
    rw [last_of_ring hd, hm.len]
  unfold Indexer.start
  rw [e]
  exact Sched.Wrap.Inv.init

include hU h hw hs in
/-- at the end of a session the shards hold all the documents -/
theorem full_shards {k : Nat} {t : Sched.St Blotter ShardIndexer (UInt32 × Bytes) Post}
    (ht : Sched.Steps (x.params u) k (x.start (reqs (docs.length + 1) new)) t) (hc : t.client = .done) {j : Nat} (hj : j < c.numShards.toNat) :
    ShardRep 65536 (t.servers j).shard (postings (shardPosts u c j 1 (docs ++ added cwd new))) := by
  obtain ⟨M, hi⟩ := fullEnv_inv hU h new hw ht
  have hd := hi.done hc
  have hjn : j < (fullEnv hU h new hw).P.n := by show j < x.shards.length; rw [h.nsh]; exact hj
  have := (hi.allDone hd (by rw [hc]; intro ds; exact nofun) hjn).2
  obtain ⟨y, hy, hr⟩ := full_shard hU h cwd new hw hs j hj
  rw [show (fullEnv hU h new hw).docs.length = new.length from reqs_length _ _] at this
  have h2 := this.symm.trans hy
  injection h2 with h2
  rw [h2]; exact hr

include hU h hw hs in
/-- there is a complete execution; none ends otherwise -/
theorem full_runs : ∃ k t, Sched.Steps (x.params u) k (x.start (reqs (docs.length + 1) new)) t ∧ t.client = .done := by
  have hnw : 0 < (fullEnv hU h new hw).P.nw := by
    show 0 < x.blotters.length
    rw [h.nw]; have := hU.shatters; omega
  have key : ∀ m k s, Sched.Steps (x.params u) k (x.start (reqs (docs.length + 1) new)) s → Sched.measure (x.params u) s ≤ m →
      ∃ k t, Sched.Steps (x.params u) k (x.start (reqs (docs.length + 1) new)) t ∧ t.client = .done := by
    intro m
    induction m with
    | zero =>
      intro k s hs' hm
      obtain ⟨M, hi⟩ := fullEnv_inv hU h new hw hs'
      rcases hi.progress (fullEnv_serves hU h cwd new hw hs) hnw with hfin | ⟨t, ht⟩
      · exact ⟨k, s, hs', hfin.1⟩
      · have := Sched.Step.decreases ht
        change _ < Sched.measure (x.params u) s at this
        omega
    | succ m ih =>
      intro k s hs' hm
      obtain ⟨M, hi⟩ := fullEnv_inv hU h new hw hs'
      rcases hi.progress (fullEnv_serves hU h cwd new hw hs) hnw with hfin | ⟨t, ht⟩
      · exact ⟨k, s, hs', hfin.1⟩
      · have := Sched.Step.decreases ht
        change Sched.measure (x.params u) t < Sched.measure (x.params u) s at this
        exact ih (k + 1) t (.step hs' ht) (by omega)
  exact key _ 0 _ .refl (Nat.le_refl _)

include hU h hw hs in
theorem full_close {k : Nat} {t : Sched.St Blotter ShardIndexer (UInt32 × Bytes) Post}
    (ht : Sched.Steps (x.params u) k (x.start (reqs (docs.length + 1) new)) t) (hc : t.client = .done)
    {front : Front} (hfr : FrontRing front (docs ++ added cwd new)) {d : Dir} (hd : CfgOk J c d) :
    ∃ d', Indexer.close J x.config front x.shards.length (fun j => (t.servers j).shard) d = .ok d' ∧
      DirRep u J c d' (docs ++ added cwd new) := by
  obtain ⟨fs, hi, hm⟩ := hfr
  have hsh : ∀ j, j < c.numShards.toNat → ShardRep 65536 ((fun j => (t.servers j).shard) j)
      ((fun j => postings (shardPosts u c j 1 (docs ++ added cwd new))) j) :=
    fun j hj => full_shards hU h cwd new hw hs ht hc hj
  unfold Indexer.close
  rw [h.cfg, h.nsh, Dmd.close_ring hi]
  obtain ⟨d', h1, h2, h3, h4, h5⟩ := closeShards_rep _ _ _ hsh
    (((c.writeTo J d).set .fnm (Fnames.write front.fnames)).set .dmd ((Dmd.zeroFields :: fs).flatMap Dmd.encode))
  refine ⟨d', h1, ⟨?_, ⟨front.fnames, fs, ?_, ?_, hm⟩, h5⟩⟩
  · rw [h2]; have := writeTo_cfg hd; simpa [Dir.set] using this
  · rw [h3]; simp [Dir.set]
  · rw [h4]; simp [Dir.set]

variable (hp : FewPaths ((docs ++ added cwd new).map fun s => s.path))

include hU h hw hs hp in
/-- every session ends in a directory that holds the documents -/
theorem full_rep {d d' : Dir} (hd : CfgOk J c d) (hss : Indexer.Session u J cwd x new d d') : DirRep u J c d' (docs ++ added cwd new) := by
  obtain ⟨h1, h2, h3, h4⟩ := hss
  obtain ⟨fs, hd0, hm⟩ := h.front
  obtain ⟨front, g1, g2⟩ := Front.adds_ring cwd new ⟨fs, hd0, hm⟩ hp
  rw [g1] at h1
  injection h1 with h1
  injection h1 with e1 e2
  subst e1 e2
  obtain ⟨d1, k1, k2⟩ := full_close hU h cwd new hw hs h2 h3 g2 hd
  have := h4.symm.trans k1
  injection this with this
  rw [this]; exact k2

include hU h hw hs hp in
/-- there is one -/
theorem full_exists {d : Dir} (hd : CfgOk J c d) : ∃ d', Indexer.Session u J cwd x new d d' := by
  obtain ⟨fs, hd0, hm⟩ := h.front
  obtain ⟨front, g1, g2⟩ := Front.adds_ring cwd new ⟨fs, hd0, hm⟩ hp
  obtain ⟨k, t, h1, h2⟩ := full_runs hU h cwd new hw hs
  obtain ⟨d1, k1, _⟩ := full_close hU h cwd new hw hs h1 h2 g2 hd
  exact ⟨d1, .run g1 h1 h2 k1⟩

end

/-- the metadata shown for an id: that of the first document it was given to, for 0 the root directory -/
def firstMeta (docs : List Document) (id : UInt32) : Bytes × UInt32 × UInt32 := if id = 0 then ([47], 0, 0) else metaOf docs id

theorem idsWith_le (p : Document → Bool) (a : List Document) : ∀ i id, id ∈ idsWith p i a → ∃ k, i ≤ k ∧ k < i + a.length ∧ id = UInt32.ofNat k := by
  induction a with
  | nil => intro i id h; simp [idsWith] at h
  | cons s a ih =>
    intro i id h
    rw [idsWith] at h
    split at h
    · rcases List.mem_cons.mp h with rfl | h
      · exact ⟨i, Nat.le_refl _, by simp, rfl⟩
      · obtain ⟨k, a1, a2, a3⟩ := ih (i + 1) id h
        exact ⟨k, by omega, by simp; omega, a3⟩
    · obtain ⟨k, a1, a2, a3⟩ := ih (i + 1) id h
      exact ⟨k, by omega, by simp; omega, a3⟩

theorem compress_mem (l : List UInt32) : ∀ a, a ∈ compress l → a ∈ l := by
  induction l using snocInd with
  | nil => intro a h; simp [compress] at h
  | snoc l v ih =>
    intro a h
    rw [compress_snoc] at h
    split at h
    · exact List.mem_append_left _ (ih a h)
    · rcases List.mem_append.mp h with h | h
      · exact List.mem_append_left _ (ih a h)
      · exact List.mem_append_right _ h

/-- the paths of the documents whose records can be looked up are absolute -/
def RootedLow (docs : List Document) : Prop := ∀ (k : Nat) s, k + 1 < 2 ^ 32 → docs[k]? = some s → ∃ cwd p, s.path = absPath cwd p

theorem Rooted.low {docs : List Document} (h : Rooted docs) : RootedLow docs := fun _ s _ hs => h s (List.mem_of_getElem? hs)

/-- the metadata of a document is found, if its path is absolute -/
theorem docid2Doc_low {t : Fnames.Table} {fs : List Fields} {docs : List Document} (k4 : MetaRep t fs docs) (hr : RootedLow docs) (c : Config)
    (xs : List ShardIndex) {id : UInt32} (i1 : 1 ≤ id.toNat) (i2 : id.toNat ≤ docs.length) :
    Index.docid2Doc ⟨c, (Dmd.zeroFields :: fs).flatMap Dmd.encode, t, xs⟩ id = .ok (metaOf docs id) := by
  obtain ⟨s, hs⟩ : ∃ s, docs[id.toNat - 1]? = some s := ⟨_, List.getElem?_eq_getElem (by omega)⟩
  obtain ⟨f, hfs⟩ : ∃ f, fs[id.toNat - 1]? = some f := ⟨_, List.getElem?_eq_getElem (by rw [k4.len]; omega)⟩
  have hd := k4.desc _ f s hfs hs
  have hget : (Dmd.zeroFields :: fs)[id.toNat]? = some f := by
    rw [show id.toNat = (id.toNat - 1) + 1 by omega]; exact hfs
  obtain ⟨hlt, hge⟩ := List.getElem?_eq_some_iff.mp hget
  have hl := Dmd.lookup_encode (Dmd.zeroFields :: fs) id hlt
  rw [hge] at hl
  obtain ⟨cwd, p, hp⟩ := hr _ s (by have := id.toNat_lt; omega) hs
  obtain ⟨r, hr1, hr2⟩ := Fnames.pathParts_abs cwd p
  have ha := k4.wf.abs hd.comps hd.fid
  rw [hp, hr2, join_split, ← hr1, ← hp] at ha
  simp only [Index.docid2Doc, hl, ha, bind, Except.bind, pure, Except.pure, metaOf, hs, Document.meta, hd.start, hd.stop]

/-- an index left by such sessions can be opened -/
theorem full_open {u : Uni} {J : CfgCodec} {c : Config} (hU : Usable J c) (srt : Sorter) {d : Dir} {docs : List Document}
    (h : DirRep u J c d docs) (hp : FewPaths (docs.map fun s => s.path)) (hb : 23 * numBlots u c docs < 2 ^ 63) (hr : RootedLow docs) :
    ∃ x, Index.open J srt d = .ok x ∧ x.config = c ∧
      Holds srt x c.numShards.toNat (fun j q => compress (idsWith (fun s => hasBlot u c s.dat (q * c.numShards.toNat + j)) 1 docs)) (firstMeta docs) := by
  obtain ⟨t, fs, k1, k2, k3⟩ := h.front
  have hsz := k3.small hp
  obtain ⟨t', m1, m2⟩ := Fnames.read_write t k3.wf (by omega) k3.names
  obtain ⟨xs, n1, n2, n3⟩ := indexShards_rep srt (d := d) (fun j => postings (shardPosts u c j 1 docs)) c.numShards.toNat 0
    (fun j _ hj => h.small hb (by omega))
  have hn := hU.shards
  have k4 := k3.sim m2
  refine ⟨⟨c, (Dmd.zeroFields :: fs).flatMap Dmd.encode, t', xs⟩, ?_, rfl, ⟨n2, ?_, ?_⟩⟩
  · simp only [Index.open, Config.readFrom, Dir.read, h.cfg, hU.codec, hU.check, if_neg (show ¬ c.numShards < 0 by omega),
      k1, k2, m1, n1, bind, Except.bind, pure, Except.pure]
  · intro j s hs
    have hj : j < c.numShards.toNat := by rw [← n2]; exact (List.getElem?_eq_some_iff.mp hs).1
    have := n3 j s hs
    rw [Nat.zero_add] at this
    exact this.congr fun b hb => postings_any u c j b hj hb docs
  · intro j q hj hq id hid
    obtain ⟨k, i1, i2, rfl⟩ := idsWith_le _ docs 1 id (compress_mem _ _ hid)
    unfold firstMeta
    split
    · rename_i h0
      rw [h0]
      have hl := Dmd.lookup_encode (Dmd.zeroFields :: fs) 0 (by simp)
      obtain ⟨r, hr0, _⟩ := k4.wf.root
      have ha := k4.wf.abs (v := 0) (cs := []) .root ((List.getElem?_eq_some_iff.mp hr0).1)
      have e : (Dmd.zeroFields :: fs)[(0 : UInt32).toNat]'(by simp) = Dmd.zeroFields := rfl
      rw [e] at hl
      have hz0 : Dmd.zeroFields.fid = 0 := rfl
      simp only [Index.docid2Doc, hl, hz0, ha, bind, Except.bind, pure, Except.pure]
      rfl
    · rename_i h0
      have hpos : (UInt32.ofNat k).toNat ≠ 0 := fun e => h0 (UInt32.toNat_inj.mp (by simpa using e))
      exact docid2Doc_low k4 hr c xs (by omega) (by simp only [UInt32.toNat_ofNat']; have := Nat.mod_le k (2 ^ 32); omega)

end Dupi
