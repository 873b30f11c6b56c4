import Verif.Proof.IndexPosts
import Verif.Proof.Dmd
import Verif.Proof.FnamesIO
import Verif.Proof.PathSpec
import Verif.Proof.Shard
import Verif.Proof.Shatter
import Verif.Proof.SchedLive
import Verif.Props.Posts
import Verif.Props.Shatter
/-! # What an indexer and an index directory hold, in terms of the documents added -/

namespace Dupi
open Spec

/-! ### The caller's part -/

/-- record `f` with table `t` describes document `s` -/
structure Describes (t : Fnames.Table) (f : Fields) (s : Document) : Prop where
  start : f.start = s.start
  stop : f.stop = s.stop
  fid : f.fid.toNat < t.length
  comps : Fnames.Comps t f.fid.toNat (Fnames.pathParts s.path)

/-- the table and records describe the documents -/
structure MetaRep (t : Fnames.Table) (fs : List Fields) (docs : List Document) : Prop where
  wf : Fnames.WF t
  names : ∀ n ∈ t, n.name.length < 2 ^ 32
  size : t.length ≤ 1 + (docs.map fun s => s.path.length).sum
  len : fs.length = docs.length
  desc : ∀ (k : Nat) f s, fs[k]? = some f → docs[k]? = some s → Describes t f s
  /-- there are no other paths in the table -/
  cover : ∀ i cs, Fnames.Comps t i cs → cs = [] ∨ ∃ s ∈ docs, cs <+: Fnames.pathParts s.path

theorem MetaRep.new : MetaRep Fnames.newFnames [] [] := by
  refine ⟨Fnames.newFnames_wf, Fnames.newFnames_names, by simp [Fnames.newFnames], rfl, by simp, fun i cs hc => .inl ?_⟩
  cases hc with
  | root => rfl
  | step h0 hn _ =>
    have := (List.getElem?_eq_some_iff.mp hn).1
    simp [Fnames.newFnames] at this; omega

theorem Describes.mono {t t' : Fnames.Table} {f : Fields} {s : Document} (h : Describes t f s) (hl : t.length ≤ t'.length)
    (hc : ∀ i cs, Fnames.Comps t i cs → Fnames.Comps t' i cs) : Describes t' f s :=
  ⟨h.start, h.stop, Nat.lt_of_lt_of_le h.fid hl, hc _ _ h.comps⟩

theorem MetaRep.sim {t t' : Fnames.Table} {fs : List Fields} {docs : List Document} (h : MetaRep t fs docs) (hs : Fnames.Sim t t') :
    MetaRep t' fs docs := by
  refine ⟨hs.wf h.wf, ?_, by rw [hs.len]; exact h.size, h.len, fun k f s hf hd => (h.desc k f s hf hd).mono (by rw [hs.len]; omega) fun i cs => hs.comps,
    fun i cs hc => h.cover i cs (hs.symm.comps hc)⟩
  intro n hn
  obtain ⟨i, hi, rfl⟩ := List.mem_iff_getElem.mp hn
  obtain ⟨m, hm, _, e, _⟩ := hs.symm.get? (List.getElem?_eq_getElem hi)
  rw [← e]; exact h.names m (List.mem_of_getElem? hm)

structure FrontRep (x : Front) (docs : List Document) : Prop where
  ex : ∃ fs, Dmd.Inv x.dmds x.file (Dmd.zeroFields :: fs) ∧ MetaRep x.fnames fs docs

/-- limits on what an index can hold -/
structure Fits (u : Uni) (c : Config) (docs : List Document) : Prop where
  /-- document ids are 32 bit numbers -/
  ids : docs.length + 1 < 2 ^ 32
  /-- so are the ids of paths and of the directories on the way to them -/
  paths : FewPaths (docs.map fun s => s.path)
  /-- offsets in the posting files are 63 bit numbers -/
  posts : 23 * numBlots u c docs < 2 ^ 63

theorem Fits.left {u : Uni} {c : Config} {a b : List Document} (h : Fits u c (a ++ b)) : Fits u c a := by
  obtain ⟨h1, h2, h3⟩ := h
  rw [numBlots_append] at h3
  simp only [List.length_append] at h1
  exact ⟨by omega, Fnames.FewPaths.mono (fun p hp => by rw [List.map_append]; exact List.mem_append_left _ hp) h2, by omega⟩

theorem MetaRep.onPaths {t : Fnames.Table} {fs : List Fields} {docs : List Document} (h : MetaRep t fs docs) :
    ∀ i cs, Fnames.Comps t i cs → Fnames.OnPaths (docs.map fun s => s.path) cs := by
  intro i cs hc
  rcases h.cover i cs hc with h0 | ⟨s, hs, h1⟩
  · exact .inl h0
  · exact .inr ⟨s.path, List.mem_map_of_mem hs, h1⟩

/-- the table of few paths is small -/
theorem MetaRep.small {t : Fnames.Table} {fs : List Fields} {docs : List Document} (h : MetaRep t fs docs) (hp : FewPaths (docs.map fun s => s.path)) : t.length < 2 ^ 32 :=
  Fnames.FewPaths.small hp t h.wf h.onPaths

theorem added_paths (docs : List Document) (cwd : Bytes) (new : List Doc) :
    (docs ++ added cwd new).map (fun s => s.path) = (docs.map fun s => s.path) ++ Fnames.absPaths cwd (new.map fun d => d.path) := by
  rw [List.map_append, Fnames.absPaths_eq]
  simp [added]

theorem Front.add_rep {x : Front} {docs : List Document} (h : FrontRep x docs) (cwd : Bytes) (doc : Doc)
    (h1 : docs.length + 2 < 2 ^ 32) (h2 : FewPaths ((docs ++ added cwd [doc]).map fun s => s.path)) :
    ∃ id x', x.add cwd doc = .ok (id, x') ∧ FrontRep x' (docs ++ added cwd [doc]) ∧ id.toNat = docs.length + 1 := by
  obtain ⟨fs, hd, hm⟩ := h
  have hsz := hm.size
  rw [added_paths] at h2
  have hpl : ((docs ++ added cwd [doc]).map fun s => s.path.length).sum =
      (docs.map fun s => s.path.length).sum + (absPath cwd doc.path).length := by simp [added, absPath_place]
  obtain ⟨ids, t', g1, g2, g3, g4, g5, g6, _, g7, gc, g8⟩ := Fnames.addAll_spec cwd [doc.path] hm.wf hm.names hm.onPaths h2
  obtain ⟨id, hid, hlt, hc⟩ := g8 0 doc.path rfl
  have haddp : Fnames.addPath cwd x.fnames doc.path = .ok (id, t') := by
    simp only [Fnames.addAll, bind, Except.bind] at g1
    cases he : Fnames.addPath cwd x.fnames doc.path with
    | error e => simp [he] at g1
    | ok r =>
      obtain ⟨a, b⟩ := r
      simp only [he, pure, Except.pure, Except.ok.injEq, Prod.mk.injEq] at g1
      obtain ⟨rfl, rfl⟩ := g1
      simp at hid; subst hid; rfl
  obtain ⟨k1, k2⟩ := Dmd.add_inv hd ⟨id, doc.start, doc.stop⟩ (by simp [hm.len]; omega)
  refine ⟨(Dmd.add x.dmds x.file ⟨id, doc.start, doc.stop⟩).1, ⟨t', (Dmd.add x.dmds x.file ⟨id, doc.start, doc.stop⟩).2.1,
    (Dmd.add x.dmds x.file ⟨id, doc.start, doc.stop⟩).2.2⟩, ?_, ⟨fs ++ [⟨id, doc.start, doc.stop⟩], by simpa using k1, ?_⟩, ?_⟩
  · simp [Front.add, haddp, bind, Except.bind, pure, Except.pure]
  · refine ⟨g2, g3, ?_, by simp [hm.len, added], ?_, ?_⟩
    · rw [hpl]; simp [Fnames.pathBytes] at g6; show t'.length ≤ _; omega
    · intro k f s hf hs
      simp only [List.getElem?_append, hm.len] at hf hs
      by_cases hk : k < docs.length
      · simp only [hk, if_true] at hf hs
        exact (hm.desc k f s hf hs).mono g5 g7
      · simp only [hk, if_false] at hf hs
        have h0 : k - docs.length = 0 := by
          false_or_by_contra
          rw [List.getElem?_eq_none (by simp; omega)] at hf; cases hf
        rw [h0] at hf hs
        simp only [List.getElem?_cons_zero, Option.some.injEq, added, List.map_cons, List.map_nil] at hf hs
        subst hf hs
        rw [absPath_place] at hc
        exact ⟨rfl, rfl, hlt, hc⟩
    · intro i cs hcs
      rcases gc i cs hcs with h | ⟨q, hq, h⟩
      · rcases hm.cover i cs h with h | ⟨s, h1, h2⟩
        · exact .inl h
        · exact .inr ⟨s, by simp [h1], h2⟩
      · rw [Fnames.absPaths, List.map_singleton, List.mem_singleton] at hq
        exact .inr ⟨⟨placeName (place cwd doc.path), doc.start, doc.stop, doc.dat.getD []⟩, by simp [added], by rw [← absPath_place, ← hq]; exact h⟩
  · rw [k2]; simp [hm.len]

/-- the requests for documents with consecutive ids from `i` on -/
def reqs : Nat → List Doc → List Front.Req
  | _, [] => []
  | i, d :: ds => (UInt32.ofNat i, d.start, d.dat.getD []) :: reqs (i + 1) ds

theorem Front.adds_rep (cwd : Bytes) (new : List Doc) : ∀ {x : Front} {docs : List Document}, FrontRep x docs →
    (docs ++ added cwd new).length + 1 < 2 ^ 32 → FewPaths ((docs ++ added cwd new).map fun s => s.path) →
    ∃ x', x.adds cwd new = .ok (reqs (docs.length + 1) new, x') ∧ FrontRep x' (docs ++ added cwd new) := by
  induction new with
  | nil => intro x docs h _ _; exact ⟨x, rfl, by simpa [added] using h⟩
  | cons d new ih =>
    intro x docs h h1 h2
    have e : docs ++ added cwd (d :: new) = (docs ++ added cwd [d]) ++ added cwd new := by simp [added]
    rw [e] at h1 h2 ⊢
    have l1 : (docs ++ added cwd [d]).length = docs.length + 1 := by simp [added]
    rw [List.length_append, l1] at h1
    obtain ⟨id, x1, g1, g2, g3⟩ := Front.add_rep h cwd d (by omega) (Fnames.FewPaths.mono (fun p hp => by rw [List.map_append]; exact List.mem_append_left _ hp) h2)
    obtain ⟨x2, k1, k2⟩ := ih g2 (by rw [List.length_append, l1]; omega) h2
    refine ⟨x2, ?_, k2⟩
    have hid : id = UInt32.ofNat (docs.length + 1) := by
      apply UInt32.toNat_inj.mp; rw [g3]; simp only [UInt32.toNat_ofNat']; omega
    rw [l1] at k1
    simp [Front.adds, g1, k1, bind, Except.bind, pure, Except.pure, reqs, hid]

theorem last_of_inv {t : Dmd.Adder} {file : Option Bytes} {hist : List Fields} (h : Dmd.Inv t file hist) (hl : hist.length < 2 ^ 32) :
    (Dmd.last t).toNat = hist.length - 1 := by
  obtain ⟨h1, h2, done, h3, h4, h5, h6⟩ := h
  have hpos : 0 < hist.length := List.length_pos_iff.mpr h2
  have hl' := congrArg List.length h3
  simp only [List.length_append] at hl'
  simp only [Dmd.last, UInt32.toNat_sub, UInt32.toNat_add, UInt32.toNat_ofNat', h5, UInt32.reduceToNat]
  omega

/-! ### Configurations -/

/-- A configuration an index can be created with. -/
structure Usable (J : CfgCodec) (c : Config) : Prop where
  cons : Props.Consistent c
  seqSmall : c.seqLen < 2 ^ 63
  shards : 0 < c.numShards
  shardsSmall : c.numShards < 2 ^ 32
  shatters : 0 < c.numShatters
  flush : 1 ≤ c.docFlushRate
  /-- the configuration file can be read back -/
  codec : J.dec (J.enc c ++ [10]) = .ok c

theorem Usable.check {J : CfgCodec} {c : Config} (h : Usable J c) : c.check = .ok () := by
  unfold Config.check
  have h1 := h.cons.seq
  have h2 := h.cons.inter
  have h3 := h.cons.prod
  have h4 := h.seqSmall
  have hpos : 0 < c.blotConfig.interleave * c.blotConfig.seqLen := Int.mul_pos h2 h1
  have : u64ToI64 (i64ToU64 (c.blotConfig.interleave * c.blotConfig.seqLen)) = c.blotConfig.interleave * c.blotConfig.seqLen := by
    rw [← h3] at hpos ⊢
    unfold u64ToI64 i64ToU64
    rw [UInt64.toNat_ofNat']
    have e : ((c.seqLen % 2 ^ 64).toNat % 2 ^ 64 : Nat) = c.seqLen.toNat := by omega
    rw [e, if_pos (by omega)]; omega
  rw [this, if_neg (by omega)]

/-! ### The goroutines of a session -/

/-- the batches up to document `m`, as the posts of the first documents -/
theorem Sched.Env.batches_take {W S D α : Type} (Γ : Sched.Env W S D α) (m j : Nat) (hm : m ≤ Γ.base + Γ.docs.length) :
    Γ.batches m j = (Γ.docs.take (m - Γ.base)).map fun x => Γ.out x.1 x.2 j := by
  unfold Sched.Env.batches
  apply List.ext_getElem
  · simp; omega
  · intro i h1 h2
    simp only [List.length_map, List.length_range] at h1
    have hi : i < Γ.docs.length := by omega
    simp only [List.getElem_map, List.getElem_range, List.getElem_take, Sched.Env.batch]
    rw [show Γ.base + i + 1 - Γ.base - 1 = i by omega, List.getElem?_eq_getElem hi]

theorem serveBucket_make (id y : UInt32) : serveBucket (Post.make id y) = (id, y.toNat % 65536) := by
  obtain ⟨_, h1, h2⟩ := Props.C01_split_make id y
  simp only [serveBucket, h1, h2, UInt32.toNat_and]
  exact Prod.ext rfl (Nat.and_two_pow_sub_one_eq_mod _ 16)

theorem serveAll_addAll (posts : List Post) : ∀ s : ShardIndexer,
    Sched.serveAll (fun s p => let (d, b) := serveBucket p; s.add d b) s posts = s.addAll (posts.map serveBucket) := by
  induction posts with
  | nil => intro s; rfl
  | cons p ps ih =>
    intro s
    simp only [Sched.serveAll, List.map_cons]
    cases hp : serveBucket p with
    | mk d b =>
      simp only [ShardIndexer.addAll, bind, Except.bind]
      cases s.add d b with
      | error e => rfl
      | ok s' => exact ih s'

/-- the open indexer `x` holds the documents `docs` -/
structure IndexerRep (u : Uni) (c : Config) (x : Indexer) (docs : List Document) : Prop where
  cfg : x.config = c
  front : FrontRep x.front docs
  nw : x.blotters.length = c.numShatters.toNat
  bl : ∀ b ∈ x.blotters, ∃ l, BlotRepL b c.blotConfig.seqLen.toNat c.blotConfig.interleave.toNat l
  nsh : x.shards.length = c.numShards.toNat
  sh : ∀ (j : Nat) s, x.shards[j]? = some s → ShardRep 65536 s (postings (shardPosts u c j 1 docs))

/-- the posts of a document for shard `j` -/
def outPosts (u : Uni) (c : Config) (did : UInt32) (dat : Bytes) (j : Nat) : List Post :=
  (route did (List.replicate c.numShards.toNat []) (blotsOf u c dat)).getD j []

theorem outPosts_eq (u : Uni) (c : Config) (id : Nat) (dat : Bytes) (j : Nat) (hj : j < c.numShards.toNat)
    (hn : c.numShards.toNat < 2 ^ 32) :
    (outPosts u c (UInt32.ofNat id) dat j).map serveBucket = docPosts c.numShards.toNat j id (blotsOf u c dat) := by
  have hN : (UInt32.ofNat c.numShards.toNat).toNat = c.numShards.toNat := by
    simp only [UInt32.toNat_ofNat']; omega
  simp only [outPosts, route, List.length_replicate, List.getD_eq_getElem?_getD, List.getElem?_map, List.getElem?_range hj,
    List.getElem?_replicate, hj, if_true, Option.map_some, Option.getD_some, List.nil_append, docPosts, List.map_map]
  apply List.map_congr_left
  intro x _
  simp only [Function.comp, serveBucket_make, UInt32.toNat_div, hN]

theorem reqs_getElem (new : List Doc) : ∀ (i k : Nat), (reqs i new)[k]? = new[k]?.map fun d => (UInt32.ofNat (i + k), d.start, d.dat.getD []) := by
  induction new with
  | nil => intro i k; rfl
  | cons d new ih =>
    intro i k
    cases k with
    | zero => rfl
    | succ k =>
      simp only [reqs, List.getElem?_cons_succ, ih]
      rw [show i + 1 + k = i + (k + 1) by omega]

theorem reqs_length (new : List Doc) : ∀ i, (reqs i new).length = new.length := by
  induction new with
  | nil => intro i; rfl
  | cons d new ih => intro i; simp [reqs, ih]

theorem reqs_posts (u : Uni) (c : Config) (j : Nat) (hj : j < c.numShards.toNat) (hn : c.numShards.toNat < 2 ^ 32) (cwd : Bytes)
    (new : List Doc) : ∀ i,
    (((reqs i new).map fun x => outPosts u c x.1 x.2.2 j).flatten).map serveBucket = shardPosts u c j i (added cwd new) := by
  induction new with
  | nil => intro i; rfl
  | cons d new ih =>
    intro i
    have := ih (i + 1)
    simp only [reqs, List.map_cons, List.flatten_cons, List.map_append, added, shardPosts] at this ⊢
    rw [this, outPosts_eq u c i _ j hj hn]

/-- the goroutine system of a session adding `new` -/
def sessionEnv {u : Uni} {J : CfgCodec} {c : Config} {x : Indexer} {docs : List Document} (hU : Usable J c) (h : IndexerRep u c x docs)
    (cwd : Bytes) (new : List Doc) (hf : Fits u c (docs ++ added cwd new)) : Sched.Env Blotter ShardIndexer (UInt32 × Bytes) Post where
  P := x.params u
  b0 := fun w => x.blotters.getD w (.circ ⟨[], 0, 0⟩)
  s0 := fun j => x.shards.getD j ⟨[], []⟩
  last := Dmd.last x.front.dmds
  docs := reqs (docs.length + 1) new
  out := fun did d j => outPosts u c did d.2 j
  Iw := fun b => ∃ l, BlotRepL b c.blotConfig.seqLen.toNat c.blotConfig.interleave.toNat l
  iw0 := by
    intro w hw
    change w < x.blotters.length at hw
    rw [List.getD_eq_getElem?_getD, List.getElem?_eq_getElem hw]
    exact h.bl _ (List.getElem_mem hw)
  hcompute := by
    rintro b did ⟨off, dat⟩ ⟨l, hl⟩
    have hn := h.nsh
    have h1 := hU.shards
    have h2 := hU.shardsSmall
    obtain ⟨b', g1, g2⟩ := compute_spec u _ _ x.shards.length (by omega) (by omega) b l hl did off dat
    refine ⟨b', ?_, _, g2⟩
    simp only [Indexer.params, h.cfg, hU.cons.seqLen_eq, g1, bind, Except.bind, pure, Except.pure]
    simp only [outPosts, blotsOf_eq, ← hn]
  ids := by
    intro k r hr
    obtain ⟨fs, hd, hm⟩ := h.front
    have hlen := hf.ids
    simp only [List.length_append] at hlen
    rw [last_of_inv hd (by simp [hm.len]; omega)]
    rw [reqs_getElem, Option.map_eq_some_iff] at hr
    obtain ⟨d, hd', rfl⟩ := hr
    have hk : k < new.length := (List.getElem?_eq_some_iff.mp hd').1
    simp only [added, List.length_map] at hlen
    simp only [UInt32.toNat_ofNat', List.length_cons, hm.len]
    omega

section
variable {u : Uni} {J : CfgCodec} {c : Config} {x : Indexer} {docs : List Document} (hU : Usable J c) (h : IndexerRep u c x docs)
  (cwd : Bytes) (new : List Doc) (hf : Fits u c (docs ++ added cwd new))

theorem sessionEnv_base : (sessionEnv hU h cwd new hf).base = docs.length := by
  obtain ⟨fs, hd, hm⟩ := h.front
  have hlen := hf.ids
  simp only [List.length_append] at hlen
  show (Dmd.last x.front.dmds).toNat = _
  rw [last_of_inv hd (by simp [hm.len]; omega)]
  simp [hm.len]

theorem sessionEnv_batches (m j : Nat) (hm : m ≤ new.length) :
    (sessionEnv hU h cwd new hf).batches (docs.length + m) j = (reqs (docs.length + 1) (new.take m)).map fun x => outPosts u c x.1 x.2.2 j := by
  have hb := sessionEnv_base hU h cwd new hf
  rw [Sched.Env.batches_take _ _ _ (by rw [hb]; show _ ≤ docs.length + (reqs _ _).length; rw [reqs_length]; omega), hb]
  show List.map (fun x => outPosts u c x.1 x.2.2 j) (List.take (docs.length + m - docs.length) (reqs (docs.length + 1) new)) = _
  congr 1
  rw [Nat.add_sub_cancel_left]
  apply List.ext_getElem?
  intro k
  rw [List.getElem?_take, reqs_getElem, reqs_getElem, List.getElem?_take]
  split <;> simp

theorem sessionEnv_posts (m j : Nat) (hj : j < c.numShards.toNat) (hm : m ≤ new.length) :
    ((sessionEnv hU h cwd new hf).batches (docs.length + m) j).flatten.map serveBucket =
      shardPosts u c j (docs.length + 1) (added cwd (new.take m)) := by
  have := hU.shardsSmall
  rw [sessionEnv_batches hU h cwd new hf m j hm, reqs_posts u c j hj (by omega) cwd]

theorem session_shard (m j : Nat) (hj : j < c.numShards.toNat) (hm : m ≤ new.length) :
    ∃ y, Sched.serveAll (x.params u).serve (x.shards.getD j ⟨[], []⟩) ((sessionEnv hU h cwd new hf).batches (docs.length + m) j).flatten = .ok y ∧
      ShardRep 65536 y (postings (shardPosts u c j 1 (docs ++ added cwd (new.take m)))) := by
  have hjx : j < x.shards.length := by rw [h.nsh]; exact hj
  have hs := h.sh j _ (List.getElem?_eq_getElem hjx)
  have hids := hf.ids
  rw [show (x.params u).serve = fun s p => let (d, b) := serveBucket p; s.add d b from rfl, serveAll_addAll,
    sessionEnv_posts hU h cwd new hf m j hj hm, List.getD_eq_getElem?_getD, List.getElem?_eq_getElem hjx, Option.getD_some]
  have e : shardPosts u c j 1 (docs ++ added cwd (new.take m)) =
      shardPosts u c j 1 docs ++ shardPosts u c j (docs.length + 1) (added cwd (new.take m)) := by
    rw [shardPosts_append, Nat.add_comm]
  rw [e]
  apply hs.addAll
  · exact shardPosts_bucket u c j _ _
  · intro b
    rw [← e]
    apply postings_shardPosts_length u c j hj
    simp only [List.length_append, added, List.length_map, List.length_take] at hids ⊢
    omega

theorem sessionEnv_serves : (sessionEnv hU h cwd new hf).Serves := by
  intro j hj
  have hj : j < c.numShards.toNat := by rw [← h.nsh]; exact hj
  obtain ⟨y, hy, _⟩ := session_shard hU h cwd new hf new.length j hj (Nat.le_refl _)
  rw [sessionEnv_base]
  refine ⟨y, ?_⟩
  show Sched.serveAll (x.params u).serve (x.shards.getD j ⟨[], []⟩) ((sessionEnv hU h cwd new hf).batches (docs.length + (reqs _ _).length) j).flatten = .ok y
  rw [reqs_length]; exact hy

theorem sessionEnv_inv {k : Nat} {t : Sched.St Blotter ShardIndexer (UInt32 × Bytes) Post}
    (ht : Sched.Steps (x.params u) k (x.start (reqs (docs.length + 1) new)) t) : Sched.Inv (sessionEnv hU h cwd new hf) t :=
  Sched.Steps.inv (Γ := sessionEnv hU h cwd new hf) ht Sched.Inv.init

theorem Sched.Inv.done {W S D α : Type} {Γ : Sched.Env W S D α} {s : Sched.St W S D α} (h : Sched.Inv Γ s) (hc : s.client = .done) :
    ∀ w, w < Γ.P.nw → (s.workers w).2 = .exited := by
  intro w hw
  false_or_by_contra
  rename_i hne
  have hex := h.ex
  rw [hc] at hex
  change Sched.sumN _ _ = Γ.P.nw at hex
  have hle : ∀ v : Sched.WSt D α, Sched.exitedW v ≤ 1 := by intro v; cases v <;> simp [Sched.exitedW]
  have h0 : Sched.exitedW (s.workers w).2 = 0 := by
    generalize (s.workers w).2 = v at hne
    cases v <;> first | rfl | exact absurd rfl hne
  have h1 := Sched.sumN_change (f := fun w => Sched.exitedW (s.workers w).2)
    (g := fun i => if i = w then 1 else Sched.exitedW (s.workers i).2) hw (fun j _ hj => by simp [hj])
  have h2 := Sched.sumN_le (n := Γ.P.nw) (c := 1) (f := fun i => if i = w then 1 else Sched.exitedW (s.workers i).2) (g := fun _ => 0)
    (fun j _ => by have := hle (s.workers j).2; split <;> omega)
  rw [Sched.sumN_const] at h2
  simp only [if_true, h0] at h1
  omega

include hU h hf in
/-- at the end of a session the shards hold all the documents -/
theorem session_shards {k : Nat} {t : Sched.St Blotter ShardIndexer (UInt32 × Bytes) Post}
    (ht : Sched.Steps (x.params u) k (x.start (reqs (docs.length + 1) new)) t) (hc : t.client = .done) {j : Nat} (hj : j < c.numShards.toNat) :
    (x.shards.getD j ⟨[], []⟩).addAll (shardPosts u c j (docs.length + 1) (added cwd new)) = .ok (t.servers j).shard ∧
    ShardRep 65536 (t.servers j).shard (postings (shardPosts u c j 1 (docs ++ added cwd new))) := by
  have hi := sessionEnv_inv hU h cwd new hf ht
  have hd := hi.done hc
  have hjn : j < (sessionEnv hU h cwd new hf).P.n := by show j < x.shards.length; rw [h.nsh]; exact hj
  have := (hi.allDone hd (by rw [hc]; intro ds; exact nofun) hjn).2
  obtain ⟨y, hy, hr⟩ := session_shard hU h cwd new hf new.length j hj (Nat.le_refl _)
  rw [sessionEnv_base, show (sessionEnv hU h cwd new hf).docs.length = new.length from reqs_length _ _] at this
  have h2 := this.symm.trans hy
  injection h2 with h2
  rw [h2]
  rw [List.take_length] at hr
  refine ⟨?_, hr⟩
  rw [← hy, show (x.params u).serve = fun s p => let (d, b) := serveBucket p; s.add d b from rfl, serveAll_addAll,
    sessionEnv_posts hU h cwd new hf new.length j hj (Nat.le_refl _), List.take_length]

include hU h hf in
/-- there is a complete execution -/
theorem session_runs : ∃ k t, Sched.Steps (x.params u) k (x.start (reqs (docs.length + 1) new)) t ∧ t.client = .done := by
  have hnw : 0 < (sessionEnv hU h cwd new hf).P.nw := by
    show 0 < x.blotters.length
    rw [h.nw]; have := hU.shatters; omega
  have key : ∀ m k s, Sched.Steps (x.params u) k (x.start (reqs (docs.length + 1) new)) s → Sched.measure (x.params u) s ≤ m →
      ∃ k t, Sched.Steps (x.params u) k (x.start (reqs (docs.length + 1) new)) t ∧ t.client = .done := by
    intro m
    induction m with
    | zero =>
      intro k s hs hm
      have hi := sessionEnv_inv hU h cwd new hf hs
      rcases hi.progress (sessionEnv_serves hU h cwd new hf) hnw with hfin | ⟨t, ht⟩
      · exact ⟨k, s, hs, hfin.1⟩
      · have := Sched.Step.decreases ht
        change _ < Sched.measure (x.params u) s at this
        omega
    | succ m ih =>
      intro k s hs hm
      have hi := sessionEnv_inv hU h cwd new hf hs
      rcases hi.progress (sessionEnv_serves hU h cwd new hf) hnw with hfin | ⟨t, ht⟩
      · exact ⟨k, s, hs, hfin.1⟩
      · have := Sched.Step.decreases ht
        change Sched.measure (x.params u) t < Sched.measure (x.params u) s at this
        exact ih (k + 1) t (.step hs ht) (by omega)
  exact key _ 0 _ .refl (Nat.le_refl _)

end

/-! ### Directories -/

/-- the closed index in directory `d` holds the documents `docs` -/
structure DirRep (u : Uni) (J : CfgCodec) (c : Config) (d : Dir) (docs : List Document) : Prop where
  cfg : d .cfg = some (J.enc c ++ [10])
  front : ∃ t fs, d .fnm = some (Fnames.write t) ∧ d .dmd = some ((Dmd.zeroFields :: fs).flatMap Dmd.encode) ∧ MetaRep t fs docs
  sh : ∀ j, j < c.numShards.toNat → ∃ bs ps, d (.pos j) = some (render 0 bs) ∧ d (.iix j) = some (ps.flatMap ShardIndexer.iixEntry) ∧
    ClosedRep 65536 bs ps (postings (shardPosts u c j 1 docs))

/-- closing shards that hold posting lists -/
theorem closeShards_rep (sh : Nat → ShardIndexer) (vals : Nat → Nat → List UInt32) (n : Nat)
    (h : ∀ j, j < n → ShardRep 65536 (sh j) (vals j)) (d : Dir) :
    ∃ d', Indexer.closeShards sh n d = .ok d' ∧ d' .cfg = d .cfg ∧ d' .fnm = d .fnm ∧ d' .dmd = d .dmd ∧
      ∀ j, j < n → ∃ bs ps, d' (.pos j) = some (render 0 bs) ∧ d' (.iix j) = some (ps.flatMap ShardIndexer.iixEntry) ∧
        ClosedRep 65536 bs ps (vals j) := by
  induction n with
  | zero => exact ⟨d, rfl, rfl, rfl, rfl, by simp⟩
  | succ n ih =>
    obtain ⟨d1, h1, h2, h3, h4, h5⟩ := ih (fun j hj => h j (by omega))
    obtain ⟨ps, bs, g1, g2⟩ := (h n (by omega)).close
    refine ⟨_, by simp only [Indexer.closeShards, h1, g1, bind, Except.bind, pure, Except.pure]; rfl, ?_, ?_, ?_, ?_⟩
    · simp [Dir.set, h2]
    · simp [Dir.set, h3]
    · simp [Dir.set, h4]
    · intro j hj
      by_cases e : j = n
      · subst e
        exact ⟨bs, ps, by simp [Dir.set], by simp [Dir.set], g2⟩
      · obtain ⟨bs', ps', k1, k2, k3⟩ := h5 j (by omega)
        exact ⟨bs', ps', by simp [Dir.set, e, k1], by simp [Dir.set, e, k2], k3⟩

/-- the directory at the beginning of a session -/
def CfgOk (J : CfgCodec) (c : Config) (d : Dir) : Prop := d .cfg = none ∨ d .cfg = some (J.enc c ++ [10])

theorem writeTo_cfg {J : CfgCodec} {c : Config} {d : Dir} (h : CfgOk J c d) : c.writeTo J d .cfg = some (J.enc c ++ [10]) := by
  rcases h with h | h <;> simp [Config.writeTo, Dir.set, h, writeAt]

theorem closeShards_congr {a b : Nat → ShardIndexer} {n : Nat} (h : ∀ j, j < n → a j = b j) (d : Dir) :
    Indexer.closeShards a n d = Indexer.closeShards b n d := by
  induction n with
  | zero => rfl
  | succ n ih =>
    simp only [Indexer.closeShards, h n (by omega)]
    rw [ih (fun j hj => h j (by omega))]

section
variable {u : Uni} {J : CfgCodec} {c : Config} {x : Indexer} {docs : List Document} (hU : Usable J c) (h : IndexerRep u c x docs)
  (cwd : Bytes) (new : List Doc) (hf : Fits u c (docs ++ added cwd new))

include hU h hf in
/-- closing at the end of a session: it succeeds, and the directory holds the documents -/
theorem close_rep {k : Nat} {t : Sched.St Blotter ShardIndexer (UInt32 × Bytes) Post}
    (ht : Sched.Steps (x.params u) k (x.start (reqs (docs.length + 1) new)) t) (hc : t.client = .done)
    {front : Front} (hfr : FrontRep front (docs ++ added cwd new)) {d : Dir} (hd : CfgOk J c d) :
    ∃ d', Indexer.close J x.config front x.shards.length (fun j => (t.servers j).shard) d = .ok d' ∧
      DirRep u J c d' (docs ++ added cwd new) := by
  obtain ⟨fs, hi, hm⟩ := hfr
  have hsh : ∀ j, j < c.numShards.toNat → ShardRep 65536 ((fun j => (t.servers j).shard) j)
      ((fun j => postings (shardPosts u c j 1 (docs ++ added cwd new))) j) :=
    fun j hj => (session_shards hU h cwd new hf ht hc hj).2
  unfold Indexer.close
  rw [h.cfg, h.nsh, Dmd.close_inv hi]
  obtain ⟨d', h1, h2, h3, h4, h5⟩ := closeShards_rep _ _ _ hsh
    (((c.writeTo J d).set .fnm (Fnames.write front.fnames)).set .dmd ((Dmd.zeroFields :: fs).flatMap Dmd.encode))
  refine ⟨d', h1, ⟨?_, ⟨front.fnames, fs, ?_, ?_, hm⟩, h5⟩⟩
  · rw [h2]; have := writeTo_cfg hd; simpa [Dir.set] using this
  · rw [h3]; simp [Dir.set]
  · rw [h4]; simp [Dir.set]

include hU h hf in
/-- every session ends in a directory that holds the documents -/
theorem Session.rep {d d' : Dir} (hd : CfgOk J c d) (hs : Indexer.Session u J cwd x new d d') : DirRep u J c d' (docs ++ added cwd new) := by
  obtain ⟨h1, h2, h3, h4⟩ := hs
  obtain ⟨front, g1, g2⟩ := Front.adds_rep cwd new h.front hf.ids hf.paths
  rw [g1] at h1
  injection h1 with h1
  injection h1 with e1 e2
  subst e1 e2
  obtain ⟨d1, k1, k2⟩ := close_rep hU h cwd new hf h2 h3 g2 hd
  have := h4.symm.trans k1
  injection this with this
  rw [this]; exact k2

include hU h hf in
/-- there is one -/
theorem Session.exists {d : Dir} (hd : CfgOk J c d) : ∃ d', Indexer.Session u J cwd x new d d' := by
  obtain ⟨front, g1, g2⟩ := Front.adds_rep cwd new h.front hf.ids hf.paths
  obtain ⟨k, t, h1, h2⟩ := session_runs hU h cwd new hf
  obtain ⟨d1, k1, _⟩ := close_rep hU h cwd new hf h1 h2 g2 hd
  exact ⟨d1, .run g1 h1 h2 k1⟩

end

theorem makeBlotters_rep {J : CfgCodec} {c : Config} (hU : Usable J c) :
    ∃ bs, Indexer.makeBlotters c = .ok bs ∧ bs.length = c.numShatters.toNat ∧
      ∀ b ∈ bs, ∃ l, BlotRepL b c.blotConfig.seqLen.toNat c.blotConfig.interleave.toNat l := by
  obtain ⟨b, h1, h2⟩ := fromConfig_repL c.blotConfig hU.cons.seq hU.cons.inter
  have := hU.shatters
  refine ⟨List.replicate c.numShatters.toNat b, ?_, by simp, ?_⟩
  · simp only [Indexer.makeBlotters]
    rw [if_neg (by omega)]
    simp [h1, bind, Except.bind, pure, Except.pure]
  · intro b' hb'
    rw [List.eq_of_mem_replicate hb']
    exact ⟨_, h2⟩

theorem create_rep {u : Uni} {J : CfgCodec} {c : Config} (hU : Usable J c) :
    ∃ x, Indexer.create c = .ok x ∧ IndexerRep u c x [] := by
  obtain ⟨bs, h1, h2, h3⟩ := makeBlotters_rep hU
  obtain ⟨a, g1, g2⟩ := Dmd.newAdder_none c.docFlushRate hU.flush
  have := hU.shards
  refine ⟨⟨c, ⟨Fnames.newFnames, a, none⟩, bs, List.replicate c.numShards.toNat (ShardIndexer.initCreate ShardIndexer.nBlots)⟩, ?_, ?_⟩
  · simp only [Indexer.create, Indexer.makeShards, if_neg (show ¬ c.numShards < 0 by omega), TokenConfig.fromConfig, hU.cons.tok, if_true, g1, h1,
      bind, Except.bind, pure, Except.pure]
  · refine ⟨rfl, ⟨[], g2, MetaRep.new⟩, h2, h3, by simp, ?_⟩
    intro j s hs
    have : s = ShardIndexer.initCreate 65536 := List.eq_of_mem_replicate (List.mem_of_getElem? hs)
    rw [this]
    exact initCreate_rep 65536

theorem openShards_rep {d : Dir} (vals : Nat → Nat → List UInt32) (n : Nat) : ∀ i,
    (∀ j, i ≤ j → j < i + n → ∃ bs ps, d (.pos j) = some (render 0 bs) ∧ d (.iix j) = some (ps.flatMap ShardIndexer.iixEntry) ∧
      ClosedRep 65536 bs ps (vals j) ∧ (render 0 bs).length < 2 ^ 63) →
    ∃ xs, Indexer.openShards d n i = .ok xs ∧ xs.length = n ∧ ∀ (k : Nat) s, xs[k]? = some s → ShardRep 65536 s (vals (i + k)) := by
  induction n with
  | zero => intro i _; exact ⟨[], rfl, rfl, by simp⟩
  | succ n ih =>
    intro i h
    obtain ⟨bs, ps, h1, h2, h3, h4⟩ := h i (Nat.le_refl _) (by omega)
    obtain ⟨xs, g1, g2, g3⟩ := ih (i + 1) (fun j hj hj' => h j (by omega) (by omega))
    refine ⟨⟨ps, render 0 bs⟩ :: xs, ?_, by simp [g2], ?_⟩
    · have := h3.reopen h4
      simp only [Indexer.openShards, Dir.read, h1, h2, bind, Except.bind, this, g1, pure, Except.pure]
    · intro k s hs
      cases k with
      | zero => simp only [List.getElem?_cons_zero, Option.some.injEq] at hs; subst hs; exact h3.shardRep
      | succ k =>
        rw [List.getElem?_cons_succ] at hs
        have := g3 k s hs
        rwa [Nat.add_assoc, Nat.add_comm 1 k] at this

/-- what opening needs of the shards -/
theorem DirRep.small {u : Uni} {J : CfgCodec} {c : Config} {d : Dir} {docs : List Document} (h : DirRep u J c d docs)
    (hf : 23 * numBlots u c docs < 2 ^ 63) {j : Nat} (hj : j < c.numShards.toNat) :
    ∃ bs ps, d (.pos j) = some (render 0 bs) ∧ d (.iix j) = some (ps.flatMap ShardIndexer.iixEntry) ∧
      ClosedRep 65536 bs ps (postings (shardPosts u c j 1 docs)) ∧ (render 0 bs).length < 2 ^ 63 := by
  obtain ⟨bs, ps, h1, h2, h3⟩ := h.sh j hj
  have h4 := h3.size
  have h5 := shardPosts_length u c j docs 1
  exact ⟨bs, ps, h1, h2, h3, by omega⟩

theorem open_rep {u : Uni} {J : CfgCodec} {c : Config} (hU : Usable J c) {d : Dir} {docs : List Document} (h : DirRep u J c d docs)
    (hf : Fits u c docs) : ∃ x, Indexer.open J d = .ok x ∧ IndexerRep u c x docs := by
  obtain ⟨bs, h1, h2, h3⟩ := makeBlotters_rep hU
  obtain ⟨t, fs, k1, k2, k3⟩ := h.front
  have hids := hf.ids
  have hsz := k3.small hf.paths
  obtain ⟨a, g1, g2⟩ := Dmd.newAdder_some c.docFlushRate hU.flush (Dmd.zeroFields :: fs) (by simp) (by simp [k3.len]; omega)
  obtain ⟨t', m1, m2⟩ := Fnames.read_write t k3.wf (by omega) k3.names
  obtain ⟨xs, n1, n2, n3⟩ := openShards_rep (d := d) (fun j => postings (shardPosts u c j 1 docs)) c.numShards.toNat 0
    (fun j _ hj => h.small hf.posts (by omega))
  have hn := hU.shards
  refine ⟨⟨c, ⟨t', a, d .dmd⟩, bs, xs⟩, ?_, ?_⟩
  · simp only [Indexer.open, Config.readFrom, Dir.read, h.cfg, hU.codec, hU.check, Indexer.makeShards, if_neg (show ¬ c.numShards < 0 by omega),
      TokenConfig.fromConfig, hU.cons.tok, if_true, k1, k2, g1, m1, n1, h1, bind, Except.bind, pure, Except.pure]
  · refine ⟨rfl, ⟨fs, ?_, k3.sim m2⟩, h2, h3, n2, ?_⟩
    · show Dmd.Inv a (d .dmd) _
      rw [k2]; exact g2
    · intro j s hs
      have := n3 j s hs
      rwa [Nat.zero_add] at this

theorem documents_snoc (h : Sessions) (cwd : Bytes) (docs : List Doc) :
    documents (h ++ [(cwd, docs)]) = documents h ++ added cwd docs := by simp [documents]

/-- **Every history leaves a directory that holds the documents added in it.** -/
theorem History.rep {u : Uni} {J : CfgCodec} {c : Config} (hU : Usable J c) {h : Sessions} {d : Dir} (hh : History u J c h d)
    (hf : Fits u c (documents h)) : DirRep u J c d (documents h) := by
  induction hh with
  | create h1 h2 =>
    rename_i x cwd docs d
    obtain ⟨y, g1, g2⟩ := create_rep (u := u) hU
    have := h1.symm.trans g1
    injection this with this
    subst this
    have hf' : Fits u c ([] ++ added cwd docs) := by simpa [documents] using hf
    have := Session.rep hU g2 cwd docs hf' (.inl rfl) h2
    simpa [documents] using this
  | append h1 h2 h3 ih =>
    rename_i hist d0 d1 x cwd docs
    rw [documents_snoc] at hf ⊢
    have hr := ih hf.left
    obtain ⟨y, g1, g2⟩ := open_rep hU hr hf.left
    have := h2.symm.trans g1
    injection this with this
    subst this
    exact Session.rep hU g2 cwd docs hf (.inr hr.cfg) h3

/-- any sessions can happen -/
theorem History.exists {u : Uni} {J : CfgCodec} {c : Config} (hU : Usable J c) (cwd : Bytes) (docs : List Doc) (h : Sessions)
    (hf : Fits u c (documents ((cwd, docs) :: h))) : ∃ d, History u J c ((cwd, docs) :: h) d := by
  induction h using snocInd with
  | nil =>
    obtain ⟨x, g1, g2⟩ := create_rep (u := u) hU
    obtain ⟨d, hd⟩ := Session.exists hU g2 cwd docs (by simpa [documents] using hf) (d := Dir.empty) (.inl rfl)
    exact ⟨d, .create g1 hd⟩
  | snoc h s ih =>
    obtain ⟨cwd', docs'⟩ := s
    rw [← List.cons_append, documents_snoc] at hf
    obtain ⟨d0, h0⟩ := ih hf.left
    have hr := History.rep hU h0 hf.left
    obtain ⟨x, g1, g2⟩ := open_rep hU hr hf.left
    obtain ⟨d, hd⟩ := Session.exists hU g2 cwd' docs' hf (.inr hr.cfg)
    exact ⟨d, .append h0 g1 hd⟩

end Dupi
