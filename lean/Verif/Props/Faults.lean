import Verif.Proof.FaultsWitness
import Verif.Props.Sched
import Verif.Props.Query
/-! # C51: sessions in which system calls fail -/

namespace Dupi

theorem initStates_repF {br : Nat → Nat → Bool} {srt : Sorter} (hsrt : IsSorter srt) (xs : List ShardIndex) : ∀ (k : Nat) (vals : Nat → Nat → List UInt32),
    (∀ (j : Nat) s, xs[j]? = some s → FIndexRep (br (k + j)) srt 65536 s (vals (k + j))) → ∃ ss, Index.initStates xs = .ok ss := by
  induction xs with
  | nil => intro k vals _; exact ⟨[], rfl⟩
  | cons x xs ih =>
    intro k vals h
    obtain ⟨ss, g1⟩ := ih (k + 1) vals (fun j s hs => by
      have := h (j + 1) s (by simpa using hs)
      rwa [show k + 1 + j = k + (j + 1) by omega])
    have hx := h 0 x rfl
    have hp := hsrt.perm x.counts
    have hl : x.perm.length = 65536 := by rw [hx.perm, hp.length_eq, List.length_range, hx.lenC]
    have h1 : x.perm[0]? = some (x.perm[0]'(by omega)) := List.getElem?_eq_getElem _
    have hm : x.perm[0]'(by omega) ∈ srt x.counts := by rw [← hx.perm]; exact List.getElem_mem _
    have hlt := (hp.mem_iff).mp hm
    rw [List.mem_range, hx.lenC] at hlt
    have h2 : x.heads[x.perm[0]'(by omega)]? = some (x.heads[x.perm[0]'(by omega)]'(by rw [hx.lenH]; exact hlt)) := List.getElem?_eq_getElem _
    have h3 : x.counts[x.perm[0]'(by omega)]? = some (x.counts[x.perm[0]'(by omega)]'(by rw [hx.lenC]; exact hlt)) := List.getElem?_eq_getElem _
    obtain ⟨rs, hrs⟩ : ∃ rs, x.readStateAt 0 = .ok rs := by
      simp only [ShardIndex.readStateAt, ShardIndex.blotAt, h1, bind, Except.bind, ShardIndex.readStateForBlotAt, h2, h3]
      exact ⟨_, rfl⟩
    exact ⟨some rs :: ss, by simp [Index.initStates, hrs, g1, bind, Except.bind, pure, Except.pure]⟩

theorem startQuery_repF {br : Nat → Nat → Bool} {srt : Sorter} (hsrt : IsSorter srt) {x : Index} {n : Nat} {vals : Nat → Nat → List UInt32} {D : UInt32 → Bytes × UInt32 × UInt32}
    (hx : HoldsF br srt x n vals D) : ∃ q, x.startQuery = .ok q ∧ q.n = UInt32.ofNat n := by
  obtain ⟨ss, g1⟩ := initStates_repF (br := br) hsrt x.shards 0 vals (fun j s hs => by rw [Nat.zero_add]; exact hx.sh j s hs)
  exact ⟨QState.setMax ⟨ss, 0, UInt32.ofNat n, 0⟩, by simp [Index.startQuery, g1, bind, Except.bind, pure, Except.pure, hx.len], rfl⟩

namespace Props
open Spec

theorem rooted_append {a b : List Document} (ha : Rooted a) (hb : Rooted b) : Rooted (a ++ b) := by
  intro s hs
  rcases List.mem_append.mp hs with h | h
  · exact ha s h
  · exact hb s h

theorem added_rooted (cwd : Bytes) (new : List Doc) : Rooted (added cwd new) := by
  have := documents_rooted [(cwd, new)]
  simpa [documents] using this

theorem Opened.rooted {u : Uni} {J : CfgCodec} {c : Config} {docs : List Document} {x : Indexer} {d : Dir} (h : Opened u J c docs x d) : Rooted docs := by
  cases h with
  | create _ => intro s hs; simp at hs
  | append _ _ => exact documents_rooted _

section
variable {u : Uni} {J : CfgCodec} {c : Config} (hU : Usable J c) {docs : List Document} {x : Indexer} {d : Dir} (ho : Opened u J c docs x d)
  {cwd : Bytes} {new : List Doc} (hf : Fits u c (docs ++ added cwd new)) {φ φ' : Fates} {ψ : Nat → Fates}
  {rs : List (Option Front.Req)} {logged : Nat → Bool} {d' : Dir}
include hU ho hf

/-- **C51**, what does hold, for the files.  System calls of a session may fail at any point (`φ`: those of `Add`, `φ'`: those of
`Close`, `ψ j`: those of the goroutine of shard `j`).  If every `Add` returned nil and `Close` returned nil, then every file, other than those
of a shard for which "couldn't add post" was logged, has the contents that a session in which no call fails leaves.
Missing for the property: the files of the other shards, see `C51_false_nil`, and callers that carry on after an error of
`Add`, see `C51_false_retry`. -/
theorem C51_unlogged_partial (hs : Indexer.SessionF u J cwd x new d φ φ' ψ rs logged true d') (hr : ∀ r ∈ rs, r ≠ none) :
    ∃ d0, Indexer.Session u J cwd x new d d0 ∧
      ∀ g, (∀ j, j < c.numShards.toNat → logged j = true → g ≠ .pos j ∧ g ≠ .iix j) → d' g = d0 g := by
  obtain ⟨h1, h2⟩ := ho.rep hU hf.left
  exact SessionF.clean hU h1 cwd new hf ψ hs hr h2

/-- **C51**, what does hold, for queries.  If every `Add` and `Close` returned nil, then (also where lines were logged) the index opens and
counts the right number of documents, and a `Get` that succeeds returns the documents it should: the others panic or
return an error that is not `io.EOF`. -/
theorem C51_get_partial {srt : Sorter} (hsrt : IsSorter srt) (hs : Indexer.SessionF u J cwd x new d φ φ' ψ rs logged true d') (hr : ∀ r ∈ rs, r ≠ none)
    (hlen : ∀ j f, j < c.numShards.toNat → d' (.pos j) = some f → f.length < 2 ^ 63) :
    ∃ ix q, Index.open J srt d' = .ok ix ∧ ix.startQuery = .ok q ∧ Dmd.numDocs ix.dmd = (docs ++ added cwd new).length + 1 ∧
      ∀ (grow : Nat → Nat) (b : UInt32) (fuel : Nat) (q' : QState), (docs ++ added cwd new).length < fuel → q'.n = q.n →
        (∃ r, Query.get grow ix fuel q' ⟨b, none⟩ = .ok r ∧ r.blot = b ∧ r.vis = (found u c (docs ++ added cwd new) b.toNat).map Document.shown) ∨
        ∃ e, Query.get grow ix fuel q' ⟨b, none⟩ = .error e ∧ (e = .panic ∨ ∃ s, e = .err (.msg s)) := by
  obtain ⟨h1, h2⟩ := ho.rep hU hf.left
  have hn := hU.shards
  have hn' := hU.shardsSmall
  obtain ⟨g1, g2, g3, g4⟩ := hs
  have g1' := front_addsF_some cwd new g1 hr
  obtain ⟨front', k1, k2⟩ := Front.adds_rep cwd new h1.front hf.ids hf.paths
  have e := g1'.symm.trans k1
  injection e with e
  injection e with e1 e2
  subst e2
  rw [e1] at g2
  rw [h1.cfg, h1.nsh] at g4
  have hrep := closeF_rep (br := fun _ _ => false) k2 h2 (fun j hj => (sessionF_shards hU h1 cwd new hf ψ g2 g3 hj).2) g4
  obtain ⟨ix, m1, m2, m3, m4⟩ := openIndex_repF hU srt hrep hf (rooted_append ho.rooted (added_rooted cwd new)) hlen
  obtain ⟨q, n1, n2⟩ := startQuery_repF hsrt m3
  refine ⟨ix, q, m1, n1, m4, fun grow b fuel q' hfuel hq => ?_⟩
  rcases get_faulty (by omega) (by omega) m3 grow b hfuel (hq.trans n2) with ⟨⟨r, r1, r2, r3⟩, _⟩ | h
  · exact .inl ⟨r, r1, r2, by rw [r3, bucketIds_found u c _ hf.ids]⟩
  · exact .inr h

end

/-! ### A failure of which nothing is returned -/

theorem create_parts {J : CfgCodec} {c : Config} (hU : Usable J c) {x : Indexer} (hx : Indexer.create c = .ok x) :
    x.shards = List.replicate c.numShards.toNat (ShardIndexer.initCreate 65536) ∧
    x.front = ⟨Fnames.newFnames, ⟨0, UInt32.ofNat (c.docFlushRate % 2 ^ 32).toNat, [Dmd.zeroFields]⟩, none⟩ := by
  obtain ⟨bs, h1, h2, h3⟩ := makeBlotters_rep hU
  have hn := hU.shards
  have hfl := hU.flush
  have g1 : Dmd.newAdder none c.docFlushRate = .ok ⟨0, UInt32.ofNat (c.docFlushRate % 2 ^ 32).toNat, [Dmd.zeroFields]⟩ := by
    simp only [Dmd.newAdder, show ¬ c.docFlushRate < 1 by omega, if_false]
  simp only [Indexer.create, Indexer.makeShards, if_neg (show ¬ c.numShards < 0 by omega), TokenConfig.fromConfig, hU.cons.tok, if_true, g1, h1,
      bind, Except.bind, pure, Except.pure, Except.ok.injEq] at hx
  subst hx
  exact ⟨rfl, rfl⟩

theorem flushF_length {p : Poster} (hl : p.link = -1) (hk : p.posts.length ≤ 520) {f f' : Bytes} {p' : Poster} (h : p.flushTo f = .ok (p', f')) :
    f'.length ≤ f.length + 540 := by
  unfold Poster.flushTo Poster.flushWrites at h
  by_cases he : p.posts = []
  · rw [if_pos he] at h
    simp only [bind, Except.bind, pure, Except.pure, Except.ok.injEq, Prod.mk.injEq, Poster.applyWrites] at h
    rw [← h.2]; simp
  · rw [if_neg he, if_neg (show ¬ p.link ≠ -1 by simp [hl])] at h
    simp only [bind, Except.bind, pure, Except.pure, Except.ok.injEq, Prod.mk.injEq] at h
    rw [← h.2]
    have hv : (putVarint (p.posts ++ be64 (i64ToU64 (-1))).length).length ≤ 10 := by
      apply putUvarint_length_u64
      have : (be64 (i64ToU64 (-1))).length = 8 := rfl
      simp only [zigzag, List.length_append, this]; split <;> omega
    have hb : (be64 (i64ToU64 (-1))).length = 8 := rfl
    simp only [List.nil_append, Poster.applyWrites, List.foldl_cons, List.foldl_nil, writeAt_end]
    generalize hg : putVarint (p.posts ++ be64 (i64ToU64 (-1))).length = v at *
    rw [← List.length_append, writeAt_end]
    simp only [List.length_append, hb]
    omega

theorem flushInd_length (ps : List Poster) (h : ∀ p ∈ ps, p.link = -1 ∧ p.posts.length ≤ 520) : ∀ {f f' : Bytes} {ps' : List Poster},
    ShardIndexer.flushInd ps f = .ok (ps', f') → f'.length ≤ f.length + ps.length * 540 := by
  induction ps with
  | nil =>
    intro f f' ps' h'
    simp only [ShardIndexer.flushInd, Except.ok.injEq, Prod.mk.injEq] at h'
    rw [h'.2]; simp
  | cons p ps ih =>
    intro f f' ps' h'
    simp only [ShardIndexer.flushInd, bind, Except.bind, pure, Except.pure] at h'
    cases h1 : p.flushTo f with
    | error e => simp [h1] at h'
    | ok r =>
      obtain ⟨p1, f1⟩ := r
      simp only [h1] at h'
      cases h2 : ShardIndexer.flushInd ps f1 with
      | error e => simp [h2] at h'
      | ok r =>
        obtain ⟨ps1, f2⟩ := r
        simp only [h2, Except.ok.injEq, Prod.mk.injEq] at h'
        obtain ⟨_, rfl⟩ := h'
        have a := flushF_length (h p (by simp)).1 (h p (by simp)).2 h1
        have b := ih (fun q hq => h q (by simp [hq])) h2
        rw [List.length_cons, Nat.add_mul]
        omega

/-- **C51 is false as stated: an error that is only logged.**  In a new index, 512 documents that have one blot `y` each are added; one system call
of the session fails, a write of the goroutine of one shard (the posting list of `y`, of which no byte is written).  Every `Add` returns nil and
so does `Close`; yet `Get` of `y` returns an error or panics. -/
theorem C51_false_nil {u : Uni} {J : CfgCodec} {c : Config} (hU : Usable J c) {srt : Sorter} (hsrt : IsSorter srt) {x : Indexer} (hx : Indexer.create c = .ok x)
    {cwd : Bytes} {s : Doc} {y : UInt32} (hy : blotsOf u c (s.dat.getD []) = [y]) (hf : Fits u c (added cwd (List.replicate 512 s))) :
    ∃ (j0 : Nat) (ψ : Nat → Fates) (rs : List (Option Front.Req)) (logged : Nat → Bool) (d' : Dir),
      (∀ j, ψ j = if j = j0 then [none, none, some 0] else []) ∧
      Indexer.SessionF u J cwd x (List.replicate 512 s) Dir.empty [] [] ψ rs logged true d' ∧ (∀ r ∈ rs, r ≠ none) ∧
      ∃ ix q, Index.open J srt d' = .ok ix ∧ ix.startQuery = .ok q ∧
        ∀ (grow : Nat → Nat) (fuel : Nat), 512 < fuel → ∃ e, Query.get grow ix fuel q ⟨y, none⟩ = .error e ∧ (e = .panic ∨ ∃ m, e = .err (.msg m)) := by
  generalize hdocs : List.replicate 512 s = docs at hf ⊢
  replace hdocs := hdocs.symm
  have hn := hU.shards
  have hn' := hU.shardsSmall
  have ho : Opened u J c [] x Dir.empty := .create hx
  have hf' : Fits u c ([] ++ added cwd docs) := hf
  obtain ⟨h1, h2⟩ := ho.rep hU hf'.left
  obtain ⟨p1, _⟩ := create_parts hU hx
  let n := c.numShards.toNat
  let j0 := y.toNat % n
  let b0 := y.toNat / n % 65536
  have hb0 : b0 < 65536 := Nat.mod_lt _ (by decide)
  let ψ : Nat → Fates := fun j => if j = j0 then [none, none, some 0] else []
  obtain ⟨front, k1, k2⟩ := Front.adds_rep cwd docs h1.front hf'.ids hf'.paths
  obtain ⟨k, t, t1, t2⟩ := sessionF_runs hU h1 cwd docs hf' ψ
  -- the shards
  obtain ⟨S, hS⟩ : ∃ S : Document, S = ⟨placeName (Spec.place cwd s.path), s.start, s.stop, s.dat.getD []⟩ := ⟨_, rfl⟩
  have hyS : blotsOf u c S.dat = [y] := by rw [hS]; exact hy
  have hadded : added cwd docs = List.replicate 512 S := by
    rw [hdocs, added, List.map_replicate, hS]
  have hsh : ∀ j, j < n → (t.servers j).shard = if j = j0 then lostShard 65536 b0 else ⟨ShardIndexer.initCreate 65536, [], false⟩ := by
    intro j hj
    have h3 := (sessionF_shards hU h1 cwd docs hf' ψ t1 t2 hj).1
    rw [p1, List.getD_eq_getElem?_getD, List.getElem?_replicate, if_pos hj, Option.getD_some, hadded, shardPosts_ones hyS] at h3
    by_cases e : j = j0
    · rw [if_pos e]
      rw [if_pos e.symm] at h3
      have : (List.range 512).map (fun m => (UInt32.ofNat (([] : List Document).length + 1 + m), y.toNat / c.numShards.toNat % 65536)) = onesPosts b0 512 := by
        unfold onesPosts
        apply List.map_congr_left
        intro m _
        rw [show ([] : List Document).length + 1 + m = m + 1 by simp [Nat.add_comm]]
      generalize (List.range 512).map (fun m => (UInt32.ofNat (([] : List Document).length + 1 + m), y.toNat / c.numShards.toNat % 65536)) = l at this h3
      rw [this, show ψ j = [none, none, some 0] from if_pos e, addAll_lost hb0] at h3
      exact (Except.ok.inj h3).symm
    · rw [if_neg e]
      rw [if_neg (fun h => e h.symm), show ψ j = [] from if_neg e, FShard.addAll] at h3
      exact (Except.ok.inj h3).symm
  have hrep : ∀ j, j < n → FShardRep (fun b => decide (j = j0 ∧ b = b0)) 65536 (t.servers j).shard.x (postings (shardPosts u c j 1 (added cwd docs))) := by
    intro j hj
    have h3 := (sessionF_shards hU h1 cwd docs hf' ψ t1 t2 hj).2
    rw [List.nil_append] at h3
    by_cases e : j = j0
    · rw [hsh j hj, if_pos e] at h3 ⊢
      have := lostShard_rep hb0 h3
      have e2 : (fun b => decide (j = j0 ∧ b = b0)) = fun b => decide (b = b0) := by funext b; simp [e]
      rw [e2]; exact this
    · have e2 : (fun b => decide (j = j0 ∧ b = b0)) = fun _ => false := by funext b; simp [e]
      rw [e2]; exact h3
  have hfates : ∀ j, j < n → (t.servers j).shard.fates = [] := by
    intro j hj
    rw [hsh j hj]; split <;> rfl
  -- closing
  obtain ⟨d', g1⟩ : ∃ d', Indexer.closeF J x.config front x.shards.length (fun j => (t.servers j).shard) Dir.empty [] = (true, d') := by
    unfold Indexer.closeF
    simp only [runF_nil, if_true]
    apply closeShardsF_nil
    intro j hj d
    have hj : j < n := Nat.lt_of_lt_of_eq hj h1.nsh
    exact FShard.close_nil (hrep j hj) (hfates j hj) j d
  have hss : Indexer.SessionF u J cwd x docs Dir.empty [] [] ψ ((reqs 1 docs).map some)
      (fun j => (t.servers j).shard.logged) true d' := by
    refine .run (addsF_nil cwd _ k1) (k := k) ?_ t2 g1
    rw [List.filterMap_map]
    simpa using t1
  have g1' := g1
  rw [h1.cfg, h1.nsh] at g1'
  have hdir := closeF_rep (br := fun j b => decide (j = j0 ∧ b = b0)) k2 h2 hrep g1'
  -- the posting files are small
  have hlen : ∀ j f, j < n → d' (.pos j) = some f → f.length < 2 ^ 63 := by
    intro j f hj hd
    obtain ⟨fs, hi, hm⟩ := k2
    obtain ⟨m1, m2⟩ := closeShardsF_spec _ _ (closeF_true (Dmd.close_inv hi) g1')
    obtain ⟨ps, f', _, n1, n2, _⟩ := m1 j hj
    rw [hd] at n2
    injection n2 with n2
    have n3 := flushInd_length _ (by
      intro p hp
      rw [hsh j hj] at hp
      split at hp
      · rcases List.mem_or_eq_of_mem_set hp with hp | hp
        · rw [List.eq_of_mem_replicate hp]; exact ⟨rfl, by simp [Poster.initCommon]⟩
        · rw [hp]
          refine ⟨rfl, ?_⟩
          show (List.replicate 512 1 ++ ff8).length ≤ 520
          rw [List.length_append, List.length_replicate]; decide
      · have hp : p ∈ List.replicate 65536 Poster.initCommon := hp
        rw [List.eq_of_mem_replicate hp]; exact ⟨rfl, by simp [Poster.initCommon]⟩) (flushIndF_true _ n1)
    have hfile : (t.servers j).shard.x.file.length = 0 := by
      rw [hsh j hj]; split <;> rfl
    obtain ⟨L, _, _, hn2, _⟩ := hrep j hj
    rw [hfile, hn2] at n3
    rw [n2]; omega
  obtain ⟨ix, m1, m2, m3, m4⟩ := openIndex_repF hU srt hdir hf' (by rw [List.nil_append]; exact added_rooted cwd _) hlen
  obtain ⟨q, q1, q2⟩ := startQuery_repF hsrt m3
  refine ⟨j0, ψ, _, _, d', fun j => rfl, hss, by
    intro r hr
    obtain ⟨a, _, rfl⟩ := List.mem_map.mp hr
    exact nofun, ix, q, m1, q1, fun grow fuel hfuel => ?_⟩
  rcases get_faulty (by omega) (by omega) m3 grow y (fuel := fuel) (by rw [hadded, List.nil_append, List.length_replicate]; exact hfuel) q2 with ⟨_, hbr⟩ | h
  · have : decide (j0 = j0 ∧ b0 = b0) = true := by simp
    rw [show decide (j0 = j0 ∧ b0 = b0) = false from hbr] at this
    cases this
  · exact h

/-! ### Carrying on after an error -/

/-- the records in the document table after the error: the one that had been written before the failing write is there twice -/
theorem addsF_retry {cwd : Bytes} {d1 d2 d3 : Doc} {n1 n2 n3 : UInt32} {t0 t1 t2 t3 : Fnames.Table} (h1 : Fnames.addPath cwd t0 d1.path = .ok (n1, t1))
    (h2 : Fnames.addPath cwd t1 d2.path = .ok (n2, t2)) (h3 : Fnames.addPath cwd t2 d3.path = .ok (n3, t3)) :
    Front.addsF cwd ⟨t0, ⟨0, 2, [Dmd.zeroFields]⟩, none⟩ [d1, d2, d3] [none, none, some 0] =
      .ok ([some (1, d1.start, d1.dat.getD []), none, some (2, d3.start, d3.dat.getD [])],
        ⟨t3, ⟨2, 2, [⟨n3, d3.start, d3.stop⟩]⟩, some ([Dmd.zeroFields, Dmd.zeroFields, ⟨n1, d1.start, d1.stop⟩].flatMap Dmd.encode)⟩, []) := by
  simp [Front.addsF, Front.addF, Dmd.addF, Dmd.flushF, Dmd.writesF, Fates.now, h1, h2, h3, bind, Except.bind, pure, Except.pure]

/-- **C51 is false as stated: a caller that carries on after an error of `Add`.**  In a new index with `DocFlushRate` 2, three documents are added; one system
call fails, the second write of the first flush of the document table (no byte of it being written).  The second `Add` returns
an error, the other two and `Close` return nil, nothing is logged.  But what had been written is written again by the next flush, and from
there on all documents are off by one: a blot of the third document (that the first has not) finds the path and the place of the first. -/
theorem C51_false_retry {u : Uni} {J : CfgCodec} {c : Config} (hU : Usable J c) {srt : Sorter} (hsrt : IsSorter srt) (hrate : c.docFlushRate = 2)
    {x : Indexer} (hx : Indexer.create c = .ok x) {cwd : Bytes} {d1 d2 d3 : Doc} (hf : Fits u c (added cwd [d1, d2, d3])) :
    ∃ (rs : List (Option Front.Req)) (logged : Nat → Bool) (d' : Dir),
      Indexer.SessionF u J cwd x [d1, d2, d3] Dir.empty [none, none, some 0] [] (fun _ => []) rs logged true d' ∧
      rs.map Option.isSome = [true, false, true] ∧ (∀ j, j < c.numShards.toNat → logged j = false) ∧
      ∃ ix q, Index.open J srt d' = .ok ix ∧ ix.startQuery = .ok q ∧
        ∀ (grow : Nat → Nat) (b : UInt32) (fuel : Nat), 2 < fuel → hasBlot u c (d3.dat.getD []) b.toNat = true → hasBlot u c (d1.dat.getD []) b.toNat = false →
          ∃ r, Query.get grow ix fuel q ⟨b, none⟩ = .ok r ∧ r.blot = b ∧ r.vis = [⟨placeName (Spec.place cwd d1.path), d1.start, d1.stop, none⟩] := by
  have hn := hU.shards
  have hn' := hU.shardsSmall
  have hf2 : Fits u c ([] ++ added cwd [d1, d3]) := by
    obtain ⟨a1, a2, a3⟩ := hf
    simp only [added, numBlots, List.map_cons, List.map_nil, List.sum_cons, List.sum_nil, List.length_cons, List.length_nil, List.nil_append] at a1 a2 a3 ⊢
    exact ⟨by simp, Fnames.FewPaths.mono (fun p hp => by simp only [List.map_cons, List.map_nil, List.mem_cons, List.not_mem_nil, or_false] at hp ⊢; rcases hp with h | h <;> simp [h]) a2,
      by simp only [numBlots, List.map_cons, List.map_nil, List.sum_cons, List.sum_nil]; omega⟩
  have ho : Opened u J c [] x Dir.empty := .create hx
  obtain ⟨h1, h2⟩ := ho.rep hU hf2.left
  obtain ⟨_, p2⟩ := create_parts hU hx
  rw [hrate] at p2
  -- the caller
  obtain ⟨ids, t3, a1, a2, a3, a4, a5, _, a6, a7, _, a8⟩ := Fnames.addAll_spec (done := []) cwd [d1.path, d2.path, d3.path] Fnames.newFnames_wf Fnames.newFnames_names
    (Fnames.newFnames_on []) (by have := hf.paths; simpa [Fnames.absPaths, added, absPath_place] using this)
  obtain ⟨n1, e1, l1, c1⟩ := a8 0 d1.path rfl
  obtain ⟨m1, m2, m3, t1, t2, b1, b2, b3, rfl⟩ : ∃ m1 m2 m3 t1 t2, Fnames.addPath cwd Fnames.newFnames d1.path = .ok (m1, t1) ∧
      Fnames.addPath cwd t1 d2.path = .ok (m2, t2) ∧ Fnames.addPath cwd t2 d3.path = .ok (m3, t3) ∧ ids = [m1, m2, m3] := by
    simp only [Fnames.addAll, bind, Except.bind, pure, Except.pure] at a1
    cases q1 : Fnames.addPath cwd Fnames.newFnames d1.path with
    | error e => simp [q1] at a1
    | ok r1 =>
      simp only [q1] at a1
      cases q2 : Fnames.addPath cwd r1.2 d2.path with
      | error e => simp [q2] at a1
      | ok r2 =>
        simp only [q2] at a1
        cases q3 : Fnames.addPath cwd r2.2 d3.path with
        | error e => simp [q3] at a1
        | ok r3 =>
          simp only [q3, Except.ok.injEq, Prod.mk.injEq] at a1
          exact ⟨r1.1, r2.1, r3.1, r1.2, r2.2, rfl, q2, by rw [q3, ← a1.2], a1.1.symm⟩
  simp only [List.getElem?_cons_zero, Option.some.injEq] at e1
  subst e1
  have hadds := addsF_retry b1 b2 b3
  have p2 : x.front = ⟨Fnames.newFnames, ⟨0, 2, [Dmd.zeroFields]⟩, none⟩ := p2
  rw [← p2] at hadds
  -- the goroutines
  obtain ⟨k, t, s1, s2⟩ := sessionF_runs hU h1 cwd [d1, d3] hf2 (fun _ => [])
  obtain ⟨k', t', s1', s2'⟩ := session_runs hU h1 cwd [d1, d3] hf2
  have hsh : ∀ j, j < c.numShards.toNat → (t.servers j).shard = ⟨(t'.servers j).shard, [], false⟩ ∧
      ShardRep 65536 (t'.servers j).shard (postings (shardPosts u c j 1 (added cwd [d1, d3]))) := by
    intro j hj
    have g1 := (sessionF_shards hU h1 cwd [d1, d3] hf2 (fun _ => []) s1 s2 hj).1
    obtain ⟨g2, g3⟩ := session_shards hU h1 cwd [d1, d3] hf2 s1' s2' hj
    exact ⟨Except.ok.inj (g1.symm.trans (addAll_of _ g2)), g3⟩
  generalize hfr : (⟨t3, ⟨2, 2, [⟨m3, d3.start, d3.stop⟩]⟩, some ([Dmd.zeroFields, Dmd.zeroFields, ⟨m1, d1.start, d1.stop⟩].flatMap Dmd.encode)⟩ : Front) = front at hadds
  -- closing
  obtain ⟨d', g1⟩ : ∃ d', Indexer.closeF J x.config front x.shards.length (fun j => (t.servers j).shard) Dir.empty [] = (true, d') := by
    unfold Indexer.closeF
    simp only [runF_nil, if_true]
    apply closeShardsF_nil
    intro j hj d
    have hj : j < c.numShards.toNat := Nat.lt_of_lt_of_eq hj h1.nsh
    obtain ⟨r1, r2⟩ := hsh j hj
    refine FShard.close_nil (br := fun _ => false) (n := 65536) (vals := postings (shardPosts u c j 1 (added cwd [d1, d3]))) ?_ ?_ j d
    · rw [r1]; exact r2.faulty
    · rw [r1]
  have hss : Indexer.SessionF u J cwd x [d1, d2, d3] Dir.empty [none, none, some 0] [] (fun _ => [])
      [some (1, d1.start, d1.dat.getD []), none, some (2, d3.start, d3.dat.getD [])] (fun j => (t.servers j).shard.logged) true d' :=
    .run hadds (k := k) s1 s2 g1
  refine ⟨_, _, d', hss, rfl, fun j hj => by rw [(hsh j hj).1], ?_⟩
  -- the files
  have hb : Dmd.close front.dmds front.file = some ([Dmd.zeroFields, Dmd.zeroFields, ⟨m1, d1.start, d1.stop⟩, ⟨m3, d3.start, d3.stop⟩].flatMap Dmd.encode) := by
    rw [← hfr]; simp [Dmd.close, Dmd.flush]
  rw [h1.cfg, h1.nsh] at g1
  have g2 := closeShardsF_true _ _ (closeF_true hb g1)
  obtain ⟨d0, r1, r2, r3, r4, r5⟩ := closeShards_rep (fun j => (t.servers j).shard.x) (fun j => postings (shardPosts u c j 1 (added cwd [d1, d3]))) c.numShards.toNat
    (fun j hj => by obtain ⟨q1, q2⟩ := hsh j hj; rw [q1]; exact q2)
    (((c.writeTo J Dir.empty).set .fnm (Fnames.write front.fnames)).set .dmd
      ([Dmd.zeroFields, Dmd.zeroFields, ⟨m1, d1.start, d1.stop⟩, ⟨m3, d3.start, d3.stop⟩].flatMap Dmd.encode))
  have := Except.ok.inj (g2.symm.trans r1)
  subst this
  obtain ⟨t4, v1, v2⟩ := Fnames.read_write t3 a2 a6 a3
  obtain ⟨xs, w1, w2, w3⟩ := indexShards_rep srt (d := d') (fun j => postings (shardPosts u c j 1 (added cwd [d1, d3]))) c.numShards.toNat 0
    (fun j _ hj => by
      obtain ⟨bs, ps, i1, i2, i3⟩ := r5 j (by omega)
      have h4 := i3.size
      have h5 := shardPosts_length u c j (added cwd [d1, d3]) 1
      have h6 := hf2.posts
      rw [List.nil_append] at h6
      exact ⟨bs, ps, i1, i2, i3, by omega⟩)
  have hcfg : d' .cfg = some (J.enc c ++ [10]) := by rw [r2]; have := writeTo_cfg h2; simpa [Dir.set] using this
  have hfnm : d' .fnm = some (Fnames.write t3) := by rw [r3, ← hfr]; simp [Dir.set]
  have hdmd : d' .dmd = some ([Dmd.zeroFields, Dmd.zeroFields, ⟨m1, d1.start, d1.stop⟩, ⟨m3, d3.start, d3.stop⟩].flatMap Dmd.encode) := by rw [r4]; simp [Dir.set]
  generalize hD : ([Dmd.zeroFields, Dmd.zeroFields, ⟨m1, d1.start, d1.stop⟩, ⟨m3, d3.start, d3.stop⟩] : List Fields) = fs at hdmd
  have wf4 := v2.wf a2
  obtain ⟨r, hr1, hr2⟩ := Fnames.pathParts_abs cwd d1.path
  have lk1 : Dmd.lookup (fs.flatMap Dmd.encode) 1 = .ok Dmd.zeroFields := by
    have := Dmd.lookup_encode fs 1 (by rw [← hD]; simp)
    rw [this]; subst hD; rfl
  have lk2 : Dmd.lookup (fs.flatMap Dmd.encode) 2 = .ok ⟨m1, d1.start, d1.stop⟩ := by
    have := Dmd.lookup_encode fs 2 (by rw [← hD]; simp)
    rw [this]; subst hD; rfl
  have ab0 := wf4.abs (v := 0) .root (by rw [v2.len]; show (0 : UInt32).toNat < _; exact Nat.lt_of_le_of_lt (Nat.zero_le _) l1)
  have ab1 := wf4.abs (v2.comps c1) (by rw [v2.len]; exact l1)
  rw [hr2, join_split, ← hr1] at ab1
  have doc1 : Index.docid2Doc ⟨c, fs.flatMap Dmd.encode, t4, xs⟩ 1 = .ok (sep :: joinSlash [], 0, 0) := by
    simp only [Index.docid2Doc, lk1, Dmd.zeroFields, ab0, bind, Except.bind, pure, Except.pure]
  have doc2 : Index.docid2Doc ⟨c, fs.flatMap Dmd.encode, t4, xs⟩ 2 = .ok (absPath cwd d1.path, d1.start, d1.stop) := by
    simp only [Index.docid2Doc, lk2, ab1, bind, Except.bind, pure, Except.pure]
  let D : UInt32 → Bytes × UInt32 × UInt32 := fun id => if id = 1 then (sep :: joinSlash [], 0, 0) else (absPath cwd d1.path, d1.start, d1.stop)
  have hids : ∀ (p : Document → Bool), ∀ id ∈ idsWith p 1 (added cwd [d1, d3]), id = 1 ∨ id = 2 := by
    intro p id hid
    obtain ⟨i1, i2⟩ := idsWith_mem p _ 1 (by simp [added]) id hid
    simp only [added, List.length_map, List.length_cons, List.length_nil] at i2
    have : id.toNat = 1 ∨ id.toNat = 2 := by omega
    rcases this with h | h
    · exact .inl (UInt32.toNat_inj.mp h)
    · exact .inr (UInt32.toNat_inj.mp h)
  have hold : Holds srt ⟨c, fs.flatMap Dmd.encode, t4, xs⟩ c.numShards.toNat (bucketIds u c (added cwd [d1, d3])) D := by
    refine ⟨w2, ?_, ?_⟩
    · intro j s hs
      have hj : j < c.numShards.toNat := by rw [← w2]; exact (List.getElem?_eq_some_iff.mp hs).1
      have := w3 j s hs
      rw [Nat.zero_add] at this
      exact this.congr fun b hb => postings_shardPosts u c j b hj hb _ (by simp [added])
    · intro j q _ _ id hid
      rcases hids _ id hid with rfl | rfl
      · exact doc1
      · exact doc2
  obtain ⟨q, q1, _, _, q4⟩ := Query.startQuery_rep hsrt hold (by omega) (by omega)
  refine ⟨⟨c, fs.flatMap Dmd.encode, t4, xs⟩, q, ?_, q1, ?_⟩
  · simp only [Index.open, Config.readFrom, Dir.read, hcfg, hU.codec, hU.check, if_neg (show ¬ c.numShards < 0 by omega),
      hfnm, hdmd, v1, w1, bind, Except.bind, pure, Except.pure]
  · intro grow b fuel hfuel hb3 hb1
    obtain ⟨hz, s, rs, i1, i2, i3, i4⟩ := Query.get_route hold (by omega) (by omega) b q4
    have hbk : bucketIds u c (added cwd [d1, d3]) (b.toNat % c.numShards.toNat) (b.toNat / c.numShards.toNat % 65536) = [2] := by
      have e : b.toNat / c.numShards.toNat % 65536 * c.numShards.toNat + b.toNat % c.numShards.toNat = b.toNat % (c.numShards.toNat * 65536) := by
        rw [Nat.mod_mul, Nat.add_comm, Nat.mul_comm]
      have hp : ∀ dat, hasBlot u c dat (b.toNat / c.numShards.toNat % 65536 * c.numShards.toNat + b.toNat % c.numShards.toNat) = hasBlot u c dat b.toNat := by
        intro dat; unfold hasBlot; rw [e]; simp only [Nat.mod_mod]
      simp only [bucketIds, added, List.map_cons, List.map_nil, idsWith, hp, hb3, hb1]
      rfl
    rw [hbk] at i3 i4
    obtain ⟨r, k1, k2, k3, _⟩ := Query.getLoop_unlim grow _ fuel rs ⟨b, none⟩ i3 i4 (by simp; omega)
    refine ⟨r, ?_, k2, ?_⟩
    · simp only [Query.get, if_neg hz, i1, i2, bind, Except.bind, Option.isSome_none]; exact k1
    · rw [k3, ← absPath_place]; rfl

/-! ### The hypotheses can be met -/

theorem fits_replicate {u : Uni} {c : Config} {cwd : Bytes} {s : Doc} (k : Nat) (h1 : k + 1 < 2 ^ 32)
    (h2 : FewPaths [placeName (Spec.place cwd s.path)]) (h3 : 23 * (k * (blotsOf u c (s.dat.getD [])).length) < 2 ^ 63) :
    Fits u c (added cwd (List.replicate k s)) := by
  have hs : ∀ (m : Nat) (k : Nat), (List.replicate k m).sum = k * m := by
    intro m k
    induction k with
    | zero => simp
    | succ k ih => rw [List.replicate_succ, List.sum_cons, ih, Nat.succ_mul]; omega
  refine ⟨by simpa [added] using h1, ?_, ?_⟩
  · rw [added, List.map_replicate, List.map_replicate]
    exact Fnames.FewPaths.mono (fun p hp => List.mem_singleton.mpr (List.mem_replicate.mp hp).2) h2
  · rw [numBlots, added, List.map_replicate, List.map_replicate, hs]; exact h3

/-- sessions in which 512 copies of "a b c." are added with an unnoticed failure -/
theorem C51_false_nil_nonvacuous : ∃ (x : Indexer) (ψ : Nat → Fates) (rs : List (Option Front.Req)) (logged : Nat → Bool) (d' : Dir),
    Indexer.SessionF asciiUni ⟨fun _ => [], fun _ => .ok exQConfig⟩ [47] x (List.replicate 512 ⟨[112], 0, 6, some [97, 32, 98, 32, 99, 46]⟩) Dir.empty [] [] ψ rs logged true d' := by
  obtain ⟨x, hx, _⟩ := create_rep (u := asciiUni) exUsable
  obtain ⟨y, hy⟩ : ∃ y, blotsOf asciiUni exQConfig ((some [97, 32, 98, 32, 99, 46] : Option Bytes).getD []) = [y] :=
    List.length_eq_one_iff.mp (by decide +kernel)
  obtain ⟨j0, ψ, rs, logged, d', _, h, _⟩ := C51_false_nil exUsable mergeSorter_isSorter hx (cwd := [47]) (s := ⟨[112], 0, 6, some [97, 32, 98, 32, 99, 46]⟩) hy
    (fits_replicate 512 (by decide) (by decide +kernel) (by rw [hy]; simp))
  exact ⟨x, ψ, rs, logged, d', h⟩

def exTwoConfig : Config := { exQConfig with docFlushRate := 2 }

/-- "a b c." and "d e f." have no blot in common: the blot of the third document finds the first -/
theorem C51_false_retry_nonvacuous : ∃ (x : Indexer) (rs : List (Option Front.Req)) (logged : Nat → Bool) (d' : Dir),
    Indexer.SessionF asciiUni ⟨fun _ => [], fun _ => .ok exTwoConfig⟩ [47] x
      [⟨[112], 0, 6, some [97, 32, 98, 32, 99, 46]⟩, ⟨[113], 0, 0, none⟩, ⟨[114], 7, 13, some [100, 32, 101, 32, 102, 46]⟩]
      Dir.empty [none, none, some 0] [] (fun _ => []) rs logged true d' ∧
    ∃ ix q b r, Index.open ⟨fun _ => [], fun _ => .ok exTwoConfig⟩ mergeSorter d' = .ok ix ∧ ix.startQuery = .ok q ∧
      hasBlot asciiUni exTwoConfig [100, 32, 101, 32, 102, 46] b.toNat = true ∧ Query.get (fun _ => 0) ix 3 q ⟨b, none⟩ = .ok r ∧
      r.vis = [⟨[47, 112], 0, 6, none⟩] := by
  have hU : Usable ⟨fun _ => [], fun _ => .ok exTwoConfig⟩ exTwoConfig :=
    ⟨⟨by decide, by decide, by decide, rfl⟩, by decide, by decide, by decide, by decide, by decide, rfl⟩
  obtain ⟨x, hx, _⟩ := create_rep (u := asciiUni) hU
  obtain ⟨rs, logged, d', h1, _, _, ix, q, h2, h3, h4⟩ := C51_false_retry hU mergeSorter_isSorter rfl hx (u := asciiUni) (cwd := [47])
    (d1 := ⟨[112], 0, 6, some [97, 32, 98, 32, 99, 46]⟩) (d2 := ⟨[113], 0, 0, none⟩) (d3 := ⟨[114], 7, 13, some [100, 32, 101, 32, 102, 46]⟩)
    ⟨by decide, by decide +kernel, by decide +kernel⟩
  have h5 : hasBlot asciiUni exTwoConfig [100, 32, 101, 32, 102, 46] (3 : UInt32).toNat = true := by decide +kernel
  obtain ⟨r, h6, _, h7⟩ := h4 (fun _ => 0) 3 3 (by decide) h5 (by decide +kernel)
  refine ⟨x, rs, logged, d', h1, ix, q, 3, r, h2, h3, h5, h6, ?_⟩
  rw [h7]
  decide +kernel

end Props
end Dupi
