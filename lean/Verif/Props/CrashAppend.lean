import Verif.Proof.CrashLink
import Verif.Props.Crash
/-! # Sessions that add to an index and do not end: C31 -/

namespace Dupi.Props
open Spec

/-- The index in `d` was left by the sessions `h`; it is opened, and documents `new` are added.  If nothing happens this leads to `d'`. -/
structure Adding (u : Uni) (J : CfgCodec) (c : Config) (h : Sessions) (d : Dir) (x : Indexer) (cwd : Bytes) (new : List Doc) (tr : Trace) (d' : Dir) : Prop where
  hist : History u J c h d
  opened : Indexer.open J d = .ok x
  fits : Fits u c (documents h ++ added cwd new)
  run : Indexer.Run u J cwd x new d [] tr d'

/-- `Get` of blot `b` returns precisely `docs` -/
def Answers (y : Index) (q : QState) (b : UInt32) (docs : List Document) : Prop :=
  ∀ grow fuel, docs.length < fuel → ∃ r, Query.get grow y fuel q ⟨b, none⟩ = .ok r ∧ r.blot = b ∧ r.vis = docs.map Document.shown

section
variable {u : Uni} {J : CfgCodec} {srt : Sorter} {c : Config} (hU : Usable J c) (hsrt : IsSorter srt)
variable {h : Sessions} {d : Dir} {x : Indexer} {cwd : Bytes} {new : List Doc} {tr : Trace} {d' : Dir} (A : Adding u J c h d x cwd new tr d')

include hU A in
theorem Adding.appending : Appending u J c (documents h) d x cwd new tr d' :=
  ⟨History.rep hU A.hist A.fits.left, documents_rooted h, A.opened, A.fits, A.run⟩

theorem found_append (u : Uni) (c : Config) (a b : List Document) (m : Nat) : found u c (a ++ b) m = found u c a m ++ found u c b m := by
  simp [found]

/-- lengths of posting lists -/
theorem postings_found {u : Uni} {J : CfgCodec} {c : Config} (hU : Usable J c) {docs : List Document} (hl : docs.length + 1 < 2 ^ 32) (b : UInt32) :
    postings (shardPosts u c (b.toNat % c.numShards.toNat) 1 docs) (b.toNat / c.numShards.toNat % 65536) =
      bucketIds u c docs (b.toNat % c.numShards.toNat) (b.toNat / c.numShards.toNat % 65536) ∧
    (postings (shardPosts u c (b.toNat % c.numShards.toNat) 1 docs) (b.toNat / c.numShards.toNat % 65536)).length = (found u c docs b.toNat).length := by
  have hn := hU.shards
  have := postings_shardPosts u c (b.toNat % c.numShards.toNat) (b.toNat / c.numShards.toNat % 65536) (Nat.mod_lt _ (by omega))
    (Nat.mod_lt _ (by decide)) docs (by omega)
  exact ⟨this, by rw [this]; exact bucketIds_length_found u c docs hl b.toNat⟩

include hU A in
/-- a shard whose table is still the old one, in whose posting file the blocks of the bucket were not touched -/
theorem Adding.kept {cd : Dir} (F : Appending.Found d d' cd J c) {y : Index} (hy : Index.open J srt cd = .ok y) {q : QState}
    (hq : q.n = UInt32.ofNat y.config.numShards.toNat) (b : UInt32)
    (hiix : cd (.iix (b.toNat % c.numShards.toNat)) = d (.iix (b.toNat % c.numShards.toNat)))
    {bs : List Blk} {ps : List Poster} (h1 : d (.pos (b.toNat % c.numShards.toNat)) = some (render 0 bs))
    (h2 : d (.iix (b.toNat % c.numShards.toNat)) = some (ps.flatMap ShardIndexer.iixEntry))
    (h3 : ClosedRep 65536 bs ps (postings (shardPosts u c (b.toNat % c.numShards.toNat) 1 (documents h)))) (h4 : (render 0 bs).length < 2 ^ 63)
    {ops : List Op} (p1 : cd (.pos (b.toNat % c.numShards.toNat)) = onFiles (d (.pos (b.toNat % c.numShards.toNat))) ops)
    (p2 : Miss (b.toNat / c.numShards.toNat % 65536) bs (.pos (b.toNat % c.numShards.toNat)) ops) :
    Answers y q b (found u c (documents h) b.toNat) := by
  have hn := hU.shards
  have hn' := hU.shardsSmall
  have A' := A.appending hU
  obtain ⟨i1, i2, ⟨f, i3, i4⟩, i5⟩ := openIndex_inv hy
  rw [F.cfg] at i1
  injection i1 with i1
  rw [← i1] at i5 hq
  obtain ⟨j1, j2⟩ := indexShards_inv _ i5
  have hj : b.toNat % c.numShards.toNat < c.numShards.toNat := Nat.mod_lt _ (by omega)
  have ho : b.toNat / c.numShards.toNat % 65536 < 65536 := Nat.mod_lt _ (by decide)
  obtain ⟨s, hs⟩ : ∃ s, y.shards[b.toNat % c.numShards.toNat]? = some s := ⟨_, List.getElem?_eq_getElem (by rw [j1]; exact hj)⟩
  obtain ⟨iix, post, k1, k2, k3⟩ := j2 _ s hs
  rw [Nat.zero_add] at k1 k2
  rw [hiix, h2] at k1
  injection k1 with k1
  rw [← k1] at k3
  obtain ⟨post', p3, p4⟩ := Miss.covers ops p2 (by have := Covers.render (b.toNat / c.numShards.toNat % 65536) bs [] []; simpa using this)
  rw [k2, h1, p3] at p1
  injection p1 with p1
  subst p1
  obtain ⟨hd, ct, g1, g2, g3⟩ := init_old h3 h4 k3 ho p4
  obtain ⟨e1, e2⟩ := postings_found (u := u) hU A'.fits.left.ids b
  have hlen := bucketIds_length_found u c _ A'.fits.left.ids b.toNat
  have hids := A'.fits.left.ids
  rw [e1] at g3
  intro grow fuel hfuel
  have hfnm : d .fnm = some f ∨ d' .fnm = some f := by
    rcases F.fnm with e | e | ⟨b', e, e', he⟩
    · exact .inl (by rw [← e]; exact i3)
    · exact .inr (by rw [← e]; exact i3)
    · rw [i3] at e
      injection e with e
      rw [← e, i4] at he
      simp [fail] at he
  obtain ⟨a, b', d1, d2⟩ := F.dmd
  rw [i2] at d2
  injection d2 with d2
  obtain ⟨r, r1, r2, r3⟩ := get_bucket (by omega) (by omega) b hs g1 g2 g3 (D := metaOf (documents h)) (fun id hid => by
    obtain ⟨m1, m2⟩ := idsWith_mem _ (documents h) 1 (by omega) id hid
    exact A'.docid hU d1 d2 i4 hfnm (added_rooted cwd new) (by omega) (by omega)) grow (fuel := fuel) (by omega) hq
  refine ⟨r, r1, r2, ?_⟩
  rw [r3, ← bucketIds_found u c _ A'.fits.left.ids]

include hU A in
/-- a shard that was completely closed, the documents being known -/
theorem Adding.closed {cd : Dir} (F : Appending.Found d d' cd J c) (hdmd : cd .dmd = d' .dmd) (hfnm : cd .fnm = d' .fnm) {y : Index}
    (hy : Index.open J srt cd = .ok y) {q : QState} (hq : q.n = UInt32.ofNat y.config.numShards.toNat) (b : UInt32)
    (hiix : cd (.iix (b.toNat % c.numShards.toNat)) = d' (.iix (b.toNat % c.numShards.toNat)))
    (hpos : cd (.pos (b.toNat % c.numShards.toNat)) = d' (.pos (b.toNat % c.numShards.toNat))) :
    Answers y q b (found u c (documents h ++ added cwd new) b.toNat) := by
  have hn := hU.shards
  have hn' := hU.shardsSmall
  have A' := A.appending hU
  obtain ⟨i1, i2, ⟨f, i3, i4⟩, i5⟩ := openIndex_inv hy
  rw [F.cfg] at i1
  injection i1 with i1
  rw [← i1] at i5 hq
  obtain ⟨j1, j2⟩ := indexShards_inv _ i5
  have hj : b.toNat % c.numShards.toNat < c.numShards.toNat := Nat.mod_lt _ (by omega)
  have ho : b.toNat / c.numShards.toNat % 65536 < 65536 := Nat.mod_lt _ (by decide)
  obtain ⟨s, hs⟩ : ∃ s, y.shards[b.toNat % c.numShards.toNat]? = some s := ⟨_, List.getElem?_eq_getElem (by rw [j1]; exact hj)⟩
  obtain ⟨iix, post, k1, k2, k3⟩ := j2 _ s hs
  rw [Nat.zero_add] at k1 k2
  obtain ⟨bs, ps, h1, h2, h3, h4⟩ := (A'.final hU).small A'.fits.posts hj
  rw [hiix, h2] at k1
  rw [hpos, h1] at k2
  injection k1 with k1
  injection k2 with k2
  rw [← k1, ← k2] at k3
  obtain ⟨hd, ct, g1, g2, g3⟩ := init_old h3 h4 k3 ho (by have := Covers.render (b.toNat / c.numShards.toNat % 65536) bs [] []; simpa using this)
  obtain ⟨e1, e2⟩ := postings_found (u := u) hU A'.fits.ids b
  have hlen := bucketIds_length_found u c _ A'.fits.ids b.toNat
  have hids := A'.fits.ids
  rw [e1] at g3
  obtain ⟨tn, fsn, n1, n2, n3⟩ := (A'.final hU).front
  have hsz := n3.small A'.fits.paths
  obtain ⟨t', m1, m2⟩ := Fnames.read_write tn n3.wf (by omega) n3.names
  rw [i3, n1] at hfnm
  injection hfnm with hfnm
  rw [hfnm, m1] at i4
  injection i4 with i4
  rw [i2, n2] at hdmd
  injection hdmd with hdmd
  have hm := n3.sim m2
  rw [i4] at hm
  have hroot : Rooted (documents h ++ added cwd new) := by
    intro s hs
    rcases List.mem_append.mp hs with h | h
    · exact A'.rooted s h
    · exact added_rooted cwd new s h
  intro grow fuel hfuel
  obtain ⟨r, r1, r2, r3⟩ := get_bucket (by omega) (by omega) b hs g1 g2 g3 (D := metaOf (documents h ++ added cwd new)) (fun id hid => by
    obtain ⟨m1, m2⟩ := idsWith_mem _ (documents h ++ added cwd new) 1 (by omega) id hid
    exact docid_meta hm hroot (by omega) (by omega) (by rw [hdmd])) grow (fuel := fuel) (by omega) hq
  refine ⟨r, r1, r2, ?_⟩
  rw [r3, ← bucketIds_found u c _ A'.fits.ids]

/-- files that can all be read -/
theorem openShards_ok {srt : Sorter} {d : Dir} (n : Nat) : ∀ {i : Nat}, (∀ j, i ≤ j → j < i + n →
    ∃ iix post es, d (.iix j) = some iix ∧ d (.pos j) = some post ∧ ShardIndex.readIix 65536 iix = .ok es) → ∃ xs, Index.openShards srt d n i = .ok xs := by
  induction n with
  | zero => intro i _; exact ⟨[], rfl⟩
  | succ n ih =>
    intro i h
    obtain ⟨iix, post, es, h1, h2, h3⟩ := h i (by omega) (by omega)
    obtain ⟨xs, hxs⟩ := ih (i := i + 1) fun j hj hj' => h j (by omega) (by omega)
    refine ⟨⟨0, es.map Prod.fst, es.map Prod.snd, srt (es.map Prod.snd), post⟩ :: xs, ?_⟩
    rw [Index.openShards]
    simp only [Dir.read, h1, h2, ShardIndexer.nBlots, h3, hxs, bind, Except.bind, pure, Except.pure]

theorem openIndex_ok {J : CfgCodec} {srt : Sorter} {d : Dir} {c : Config} (h1 : Config.readFrom J d = .ok c) (h2 : ∃ b, d .dmd = some b)
    (h3 : ∃ b t, d .fnm = some b ∧ Fnames.read b = .ok t)
    (h4 : ∀ j, j < c.numShards.toNat → ∃ iix post es, d (.iix j) = some iix ∧ d (.pos j) = some post ∧ ShardIndex.readIix 65536 iix = .ok es)
    (hn : 0 ≤ c.numShards) : ∃ y, Index.open J srt d = .ok y := by
  obtain ⟨b, h2⟩ := h2
  obtain ⟨f, t, h3, h3'⟩ := h3
  obtain ⟨xs, h5⟩ := openShards_ok (srt := srt) c.numShards.toNat (i := 0) fun j _ hj => h4 j (by omega)
  refine ⟨⟨c, b, t, xs⟩, ?_⟩
  unfold Index.open
  simp only [Dir.read, h1, h2, h3, h3', h5, if_neg (show ¬ c.numShards < 0 by omega), bind, Except.bind, pure, Except.pure]

theorem onFiles_some (ops : List Op) : ∀ f : Bytes, ∃ w, onFiles (some f) ops = some w := by
  induction ops with
  | nil => intro f; exact ⟨f, rfl⟩
  | cons op ops ih => intro f; cases op <;> exact ih _

theorem few {u : Uni} {J : CfgCodec} {c : Config} (hU : Usable J c) {old new : List Document} (hl : (old ++ new).length + 1 < 2 ^ 32) (b : UInt32) :
    (postings (shardPosts u c (b.toNat % c.numShards.toNat) 1 (old ++ new)) (b.toNat / c.numShards.toNat % 65536)).length =
      (postings (shardPosts u c (b.toNat % c.numShards.toNat) 1 old) (b.toNat / c.numShards.toNat % 65536)).length + (found u c new b.toNat).length := by
  have hl' : old.length + 1 < 2 ^ 32 := by simp at hl; omega
  rw [(postings_found (u := u) hU hl b).2, (postings_found (u := u) hU hl' b).2, found_append, List.length_append]

include hU A in
theorem Adding.openFnm {cd : Dir} (F : Appending.Found d d' cd J c) : ∀ b, cd .fnm = some b → Tame (Fnames.read b) := by
  have A' := A.appending hU
  obtain ⟨t, fs, k1, k2, k3⟩ := A'.dir.front
  obtain ⟨t2, fs2, n1, n2, n3⟩ := (A'.final hU).front
  have hsz := k3.small A'.fits.left.paths
  have hsz2 := n3.small A'.fits.paths
  obtain ⟨t', m1, _⟩ := Fnames.read_write t k3.wf (by omega) k3.names
  obtain ⟨t2', m2, _⟩ := Fnames.read_write t2 n3.wf (by omega) n3.names
  intro b hb
  rcases F.fnm with e | e | ⟨b', e, he⟩
  · rw [hb, k1] at e; injection e with e; rw [e, m1]; exact Tame.ok _
  · rw [hb, n1] at e; injection e with e; rw [e, m2]; exact Tame.ok _
  · rw [hb] at e; injection e with e; rw [e]; exact .inr he

include hU A in
theorem Adding.tame {cd : Dir} (F : Appending.Found d d' cd J c) : Tame (Index.open J srt cd) :=
  openIndex_tame F.cfg (by have := hU.shards; omega) (A.openFnm hU F)

include hU hsrt A in
/-- **C31**, the part of it that holds while documents are added.  The process dies while documents are added,
the goroutines being scheduled in any way: the index opens, and `Get` of each blot that at most 102 of the new
documents have returns precisely the documents of the completed sessions that have it. -/
theorem C31_adding_partial {a : List Op} {s : Nat → List Op} {ops : List Op} (ha : Cut tr.adds a)
    (hs : ∀ j, j < c.numShards.toNat → Cut (tr.serve j) (s j)) (hi : Interleave (Trace.workers c.numShards.toNat a s) ops) :
    ∃ y q, Index.open J srt (d.run (tr.setup ++ ops)) = .ok y ∧ y.startQuery = .ok q ∧
      ∀ b : UInt32, (found u c (added cwd new) b.toNat).length ≤ 102 → Answers y q b (found u c (documents h) b.toNat) := by
  have A' := A.appending hU
  have hn := hU.shards
  rw [show tr.setup = [] from A'.run.rep.setup, List.nil_append]
  obtain ⟨F, f1, f2⟩ := A'.adding_found hU ha hs hi
  obtain ⟨y, hy⟩ : ∃ y, Index.open J srt (d.run ops) = .ok y := by
    refine openIndex_ok F.cfg ?_ ?_ (fun j hj => ?_) (by omega)
    · obtain ⟨a, b, _, e⟩ := F.dmd; exact ⟨_, e⟩
    · obtain ⟨t, fs, k1, k2, k3⟩ := A'.dir.front
      have hsz := k3.small A'.fits.left.paths
      obtain ⟨t', m1, _⟩ := Fnames.read_write t k3.wf (by omega) k3.names
      exact ⟨_, t', by rw [f1, k1], m1⟩
    · obtain ⟨bs, ps, ws, wsc, ps', h1, h2, h3, h4, h5, _⟩ := A'.shard hU hj
      obtain ⟨g1, g2⟩ := f2 j hj
      have hread := index_readIix_spec bs h4 _ ps 0 (by simpa using h3.rep)
      rw [h3.len] at hread
      obtain ⟨w, hw⟩ := onFiles_some (s j) (render 0 bs)
      exact ⟨_, w, _, by rw [g1, h2], by rw [g2, h1, hw], hread⟩
  obtain ⟨q, q1, q2⟩ := startQuery_opened hsrt hy
  refine ⟨y, q, hy, q1, fun b hb => ?_⟩
  have hj : b.toNat % c.numShards.toNat < c.numShards.toNat := Nat.mod_lt _ (by omega)
  obtain ⟨bs, ps, ws, wsc, ps', h1, h2, h3, h4, h5, h6, h7, h8, h9⟩ := A'.shard hU hj
  obtain ⟨g1, g2⟩ := f2 _ hj
  refine A.kept hU F hy q2 b g1 h1 h2 h3 h4 g2 (((h9 _ (Nat.mod_lt _ (by decide))).1 ?_).cut (hs _ hj))
  rw [few (J := J) hU A'.fits.ids b]
  omega

include hU hsrt A in
/-- **C31**, the part of it that holds while the files of the index as a whole are written -/
theorem C31_closing_partial {ops cs : List Op} (hi : Interleave (Trace.workers c.numShards.toNat tr.adds tr.serve) ops) (hcut : Cut tr.closing cs) :
    (∃ e, Index.open J srt (d.run (tr.setup ++ ops ++ cs)) = fail e) ∨ ∃ y q, Index.open J srt (d.run (tr.setup ++ ops ++ cs)) = .ok y ∧ y.startQuery = .ok q ∧
      ∀ b : UInt32, (found u c (added cwd new) b.toNat).length ≤ 102 → Answers y q b (found u c (documents h) b.toNat) := by
  have A' := A.appending hU
  have hn := hU.shards
  rw [show tr.setup = [] from A'.run.rep.setup, List.nil_append]
  obtain ⟨F, f2⟩ := A'.closing_found hU hi hcut
  rcases A.tame (srt := srt) hU F with ⟨y, hy⟩ | he
  rotate_left
  · exact .inl he
  obtain ⟨q, q1, q2⟩ := startQuery_opened hsrt hy
  refine .inr ⟨y, q, hy, q1, fun b hb => ?_⟩
  have hj : b.toNat % c.numShards.toNat < c.numShards.toNat := Nat.mod_lt _ (by omega)
  obtain ⟨bs, ps, ws, wsc, ps', h1, h2, h3, h4, h5, h6, h7, h8, h9⟩ := A'.shard hU hj
  obtain ⟨g1, g2⟩ := f2 _ hj
  refine A.kept hU F hy q2 b g1 h1 h2 h3 h4 g2 ((h9 _ (Nat.mod_lt _ (by decide))).1 ?_)
  rw [few (J := J) hU A'.fits.ids b]
  omega

include hU hsrt A in
/-- **C31**, the part of it that holds while the shards are closed: in a shard not yet begun, blots that at most
102 new documents have are answered as before the session; in a completely closed shard, all blots are answered
as after the session. -/
theorem C31_shards_partial {s : Nat → List Op} {ops ops' : List Op} (hi : Interleave (Trace.workers c.numShards.toNat tr.adds tr.serve) ops)
    (hs : ∀ j, j < c.numShards.toNat → Cut (tr.shard j) (s j)) (hi' : Interleave ((List.range c.numShards.toNat).map s) ops') :
    (∃ e, Index.open J srt (d.run (tr.setup ++ ops ++ tr.closing ++ ops')) = fail e) ∨
    ∃ y q, Index.open J srt (d.run (tr.setup ++ ops ++ tr.closing ++ ops')) = .ok y ∧ y.startQuery = .ok q ∧
      ∀ b : UInt32,
        (found u c (added cwd new) b.toNat = [] → Answers y q b (found u c (documents h) b.toNat)) ∧
        (s (b.toNat % c.numShards.toNat) = [] → (found u c (added cwd new) b.toNat).length ≤ 102 → Answers y q b (found u c (documents h) b.toNat)) ∧
        (s (b.toNat % c.numShards.toNat) = tr.shard (b.toNat % c.numShards.toNat) →
          Answers y q b (found u c (documents h ++ added cwd new) b.toNat)) := by
  have A' := A.appending hU
  have hn := hU.shards
  rw [show tr.setup = [] from A'.run.rep.setup, List.nil_append]
  obtain ⟨F, fn, fd, f2⟩ := A'.shards_found hU hi hs hi'
  rcases A.tame (srt := srt) hU F with ⟨y, hy⟩ | he
  rotate_left
  · exact .inl he
  obtain ⟨q, q1, q2⟩ := startQuery_opened hsrt hy
  refine .inr ⟨y, q, hy, q1, fun b => ?_⟩
  have hj : b.toNat % c.numShards.toNat < c.numShards.toNat := Nat.mod_lt _ (by omega)
  obtain ⟨bs, ps, ws, wsc, ps', h1, h2, h3, h4, h5, h6, h7, h8, h9⟩ := A'.shard hU hj
  obtain ⟨h9, h9'⟩ := h9 _ (Nat.mod_lt (b.toNat / c.numShards.toNat) (by decide))
  rw [few (J := J) hU A'.fits.ids b] at h9 h9'
  have hsh : tr.shard (b.toNat % c.numShards.toNat) ≠ [] := by rw [h6]; simp
  rcases f2 _ hj with ⟨g1, g2, g3, g4⟩ | ⟨b', g1, g2, _⟩ | ⟨g1, g2, g3⟩
  · rw [← onFiles_append] at g2
    refine ⟨fun hb => ?_, fun hb hb' => ?_, fun hb => absurd hb g4⟩
    · refine A.kept hU F hy q2 b g1 h1 h2 h3 h4 g2 ((h9 (by rw [hb]; simp)).append (Miss.cut g3 ?_))
      rw [h6, opsOn_append, (posOps_on _ _).opsOn, Off.opsOn (by
        intro op hop
        rcases List.mem_cons.mp hop with rfl | hop
        · exact nofun
        · rw [writes_on _ _ _ op hop]; exact nofun), List.append_nil]
      exact h9' (by rw [hb]; rfl)
    · rw [hb] at g2
      exact A.kept hU F hy q2 b g1 h1 h2 h3 h4 g2 ((h9 (by omega)).append (by intro o ho; simp [Dupi.opsOn] at ho))
  · exfalso
    obtain ⟨i1, _, _, i5⟩ := openIndex_inv hy
    rw [F.cfg] at i1
    injection i1 with i1
    rw [← i1] at i5
    obtain ⟨e, he⟩ := openShards_errs srt (d.run (ops ++ tr.closing ++ ops')) c.numShards.toNat 0 _ (Nat.zero_le _) (by rw [Nat.zero_add]; exact hj) (fun b2 hb2 => by rw [g1] at hb2; injection hb2 with hb2; rw [← hb2]; exact g2)
    rw [i5] at he
    simp [fail] at he
  · have := A.closed hU F fd fn hy q2 b g2 g3
    refine ⟨fun hb => ?_, fun hb => ?_, fun _ => this⟩
    · rw [found_append, hb, List.append_nil] at this
      exact this
    · rw [← g1] at hsh
      exact absurd hb hsh

include hU hsrt A in
/-- **C31**, the part of it that holds at every point.  The process dies at any point of the session: `OpenIndex`
returns an error (it does not panic), or the index opens and `Get` of each blot that no new document has returns
precisely the documents of the completed sessions that have it. -/
theorem C31_partial {cd : Dir} (hc : Trace.Crashed c.numShards.toNat tr d cd) :
    (∃ e, Index.open J srt cd = fail e) ∨ ∃ y q, Index.open J srt cd = .ok y ∧ y.startQuery = .ok q ∧
      ∀ b : UInt32, found u c (added cwd new) b.toNat = [] → Answers y q b (found u c (documents h) b.toNat) := by
  have A' := A.appending hU
  have hset : tr.setup = [] := A'.run.rep.setup
  cases hc with
  | setup hc =>
    rename_i ops
    rw [hset] at hc
    cases hc
    obtain ⟨y, q, h1, h2, h3⟩ := C31_adding_partial hU hsrt A .stop (s := fun _ => []) (fun _ _ => .stop) (ops := []) (.nil (by simp [Trace.workers]))
    rw [hset] at h1
    exact .inr ⟨y, q, h1, h2, fun b hb => h3 b (by rw [hb]; simp)⟩
  | adding ha hs hi =>
    obtain ⟨y, q, h1, h2, h3⟩ := C31_adding_partial hU hsrt A ha hs hi
    exact .inr ⟨y, q, h1, h2, fun b hb => h3 b (by rw [hb]; simp)⟩
  | closing hi hcut =>
    rcases C31_closing_partial hU hsrt A hi hcut with h | ⟨y, q, h1, h2, h3⟩
    · exact .inl h
    · exact .inr ⟨y, q, h1, h2, fun b hb => h3 b (by rw [hb]; simp)⟩
  | shards hi hs hi' =>
    rcases C31_shards_partial hU hsrt A hi hs hi' with h | ⟨y, q, h1, h2, h3⟩
    · exact .inl h
    · exact .inr ⟨y, q, h1, h2, fun b hb => (h3 b).1 hb⟩


/-! ### What is false of the code -/

include hU A in
/-- **C31 is false of the code**, first reason: the table of paths is truncated before it is written
(indexer.go:243-246).  In every session that adds documents there is a point at which dying leaves an index that
cannot be opened. -/
theorem C31_false_fnm : ∃ cd, Trace.Crashed c.numShards.toNat tr d cd ∧ ∃ e, Index.open J srt cd = fail e := by
  have A' := A.appending hU
  obtain ⟨fs, front, q1, q2, q3, q4, q5, q6, q7, q8, q9⟩ := A'.meta_keeps hU
  obtain ⟨ops, hi⟩ := Interleave.exists _ (Trace.workers c.numShards.toNat tr.adds tr.serve) rfl
  have hsplit : tr.closing = (Config.writeOps J x.config ++ [.trunc .fnm]) ++ (Op.writes .fnm 0 (Fnames.writeChunks front.fnames) ++ Dmd.closeOps front.dmds front.file) := by
    rw [q2, Indexer.closingOps, Fnames.writeOps]; simp
  have hcut : Cut tr.closing (Config.writeOps J x.config ++ [.trunc .fnm]) := by rw [hsplit]; exact Cut.prefix _ _
  refine ⟨_, .closing hi hcut, ?_⟩
  rw [show tr.setup = [] from A'.run.rep.setup, List.nil_append]
  obtain ⟨F, _⟩ := A'.closing_found hU hi hcut
  refine open_errs srt ?_ (.inl fun b hb => ?_)
  · intro b hb
    have := F.cfg
    unfold Config.readFrom Dir.read at this
    rw [hb] at this
    simp only [bind, Except.bind] at this
    cases hd : J.dec b with
    | error e => rw [hd] at this; simp at this
    | ok c' => exact Tame.ok _
  · rw [← List.append_assoc, run_append, run_file] at hb
    have hb' : some [] = some b := hb
    injection hb' with hb'
    rw [← hb']
    exact ⟨_, rfl⟩

include hU A in
/-- **C31 is false of the code**, the same for the table of each shard (internal/shard/indexer.go:119-121) -/
theorem C31_false_iix {j : Nat} (hj : j < c.numShards.toNat) :
    ∃ cd, Trace.Crashed c.numShards.toNat tr d cd ∧ cd .fnm = d' .fnm ∧ cd .dmd = d' .dmd ∧ ∃ e, Index.open J srt cd = fail e := by
  have A' := A.appending hU
  have hn := hU.shards
  obtain ⟨bs, ps, ws, wsc, ps', h1, h2, h3, h4, h5, h6, h7, h8, h9⟩ := A'.shard hU hj
  obtain ⟨ops, hi⟩ := Interleave.exists _ (Trace.workers c.numShards.toNat tr.adds tr.serve) rfl
  let s : Nat → List Op := fun k => if k = j then ShardIndexer.posOps j wsc ++ [.trunc (.iix j)] else []
  have hsj : s j = ShardIndexer.posOps j wsc ++ [.trunc (.iix j)] := by simp [s]
  have hs : ∀ k, k < c.numShards.toNat → Cut (tr.shard k) (s k) := by
    intro k _
    by_cases e : k = j
    · rw [e, hsj, h6, show ∀ l : List Op, ShardIndexer.posOps j wsc ++ .trunc (.iix j) :: l = (ShardIndexer.posOps j wsc ++ [.trunc (.iix j)]) ++ l by simp]
      exact Cut.prefix _ _
    · simp only [s, if_neg e]; exact .stop
  obtain ⟨ops', hi'⟩ := Interleave.exists _ ((List.range c.numShards.toNat).map s) rfl
  obtain ⟨F, fn, fd, _⟩ := A'.shards_found hU hi hs hi'
  refine ⟨_, .shards hi hs hi', ?_⟩
  rw [show tr.setup = [] from A'.run.rep.setup, List.nil_append]
  refine ⟨fn, fd, ?_⟩
  have hsh : ∀ k, k < c.numShards.toNat → OnShard k (s k) := by
    intro k hk
    obtain ⟨_, _, _, _, _, _, _, _, _, _, g6, _⟩ := A'.shard hU hk
    exact (hs k hk).onShard (by rw [g6]; exact closeOps_onShard _ _ _)
  obtain ⟨p1, _⟩ := shards_opsOn hi' hsh
  rcases A.tame (srt := srt) hU F with ⟨y, hy⟩ | he
  · exfalso
    obtain ⟨i1, _, _, i5⟩ := openIndex_inv hy
    rw [F.cfg] at i1
    injection i1 with i1
    rw [← i1] at i5
    have hiix : d.run (ops ++ tr.closing ++ ops') (.iix j) = some [] := by
      rw [run_append, run_file, (p1 j hj).2, hsj, opsOn_append, ((posOps_on j wsc).off (g := .iix j) nofun).opsOn]
      simp [Dupi.opsOn, Op.file, onFiles, Op.onFile]
    obtain ⟨e, he⟩ := openShards_errs srt (d.run (ops ++ tr.closing ++ ops')) c.numShards.toNat 0 j (Nat.zero_le _) (by rw [Nat.zero_add]; exact hj) (fun b2 hb2 => by
      rw [hiix] at hb2; injection hb2 with hb2; rw [← hb2]; exact readIix_empty (by decide))
    rw [i5] at he
    simp [fail] at he
  · exact he

include hU hsrt A in
/-- **C31 is false of the code**, second reason: the link to a new block is written before the block
(poster.go:152-184).  For every blot that some document of the completed sessions has and between one and 102 of
the new documents have, there is a point at which dying leaves an index that opens, in which `Get` of the blot
returns an error. -/
theorem C31_false_link {b : UInt32} (hold : found u c (documents h) b.toNat ≠ []) (hnew : found u c (added cwd new) b.toNat ≠ [])
    (hle : (found u c (added cwd new) b.toNat).length ≤ 102) :
    ∃ cd y q, Trace.Crashed c.numShards.toNat tr d cd ∧ Index.open J srt cd = .ok y ∧ y.startQuery = .ok q ∧
      ∀ grow fuel, (found u c (documents h) b.toNat).length < fuel → Query.get grow y fuel q ⟨b, none⟩ = fail (.wrap "1" .eof) := by
  have A' := A.appending hU
  have hn := hU.shards
  have hn' := hU.shardsSmall
  have hj : b.toNat % c.numShards.toNat < c.numShards.toNat := Nat.mod_lt _ (by omega)
  have ho : b.toNat / c.numShards.toNat % 65536 < 65536 := Nat.mod_lt _ (by decide)
  obtain ⟨e1, e2⟩ := postings_found (u := u) hU A'.fits.left.ids b
  have hfew := few (u := u) hU A'.fits.ids b
  have hpos := List.length_pos_iff.mpr hnew
  have hpos' := List.length_pos_iff.mpr hold
  obtain ⟨bs, ps, ws1, ws3, w, rest, B, h2, h3, h4, h5, h6, h7, h8, h9, h10, h11⟩ := A'.patch hU hj ho
    (by intro e; rw [e] at e2; simp at e2; omega) (by omega) (by omega)
  obtain ⟨ops, hi⟩ := Interleave.exists _ (Trace.workers c.numShards.toNat tr.adds tr.serve) rfl
  let s : Nat → List Op := fun j => if j = b.toNat % c.numShards.toNat then ShardIndexer.posOps j (ws1 ++ [w]) else []
  have hsj : s (b.toNat % c.numShards.toNat) = ShardIndexer.posOps (b.toNat % c.numShards.toNat) (ws1 ++ [w]) := by simp [s]
  have hs : ∀ j, j < c.numShards.toNat → Cut (tr.shard j) (s j) := by
    intro j _
    by_cases e : j = b.toNat % c.numShards.toNat
    · rw [e, hsj, h5, List.append_assoc]; exact Cut.prefix _ _
    · simp only [s, if_neg e]; exact .stop
  obtain ⟨ops', hi'⟩ := Interleave.exists _ ((List.range c.numShards.toNat).map s) rfl
  obtain ⟨F, fn, fd, _⟩ := A'.shards_found hU hi hs hi'
  obtain ⟨_, fc⟩ := A'.closing_found hU hi (Cut.refl _)
  have hon : ∀ j, On (.pos j) (s j) := by
    intro j
    simp only [s]
    split
    · exact posOps_on _ _
    · intro op hop; simp at hop
  obtain ⟨p1, _⟩ := shards_opsOn hi' fun j _ op hop => .inl (hon j op hop)
  have hiix : ∀ j, j < c.numShards.toNat → d.run (ops ++ tr.closing ++ ops') (.iix j) = d (.iix j) := by
    intro j hj
    rw [run_append, run_file, (p1 j hj).2, ((hon j).off (g := .iix j) nofun).opsOn]
    exact (fc j hj).1
  have hpos : ∀ j, j < c.numShards.toNat → d.run (ops ++ tr.closing ++ ops') (.pos j) = onFiles (onFiles (d (.pos j)) (tr.serve j)) (s j) := by
    intro j hj
    rw [run_append, run_file, (p1 j hj).1, (hon j).opsOn, (fc j hj).2]
  obtain ⟨y, hy⟩ : ∃ y, Index.open J srt (d.run (ops ++ tr.closing ++ ops')) = .ok y := by
    refine openIndex_ok F.cfg ?_ ?_ (fun j hj => ?_) (by omega)
    · obtain ⟨a, b, _, e⟩ := F.dmd; exact ⟨_, e⟩
    · obtain ⟨t, fs, k1, k2, k3⟩ := (A'.final hU).front
      have hsz := k3.small A'.fits.paths
      obtain ⟨t', m1, _⟩ := Fnames.read_write t k3.wf (by omega) k3.names
      exact ⟨_, t', by rw [fn, k1], m1⟩
    · obtain ⟨bs, ps, ws, wsc, ps', h1, h2, h3, h4, h5, _⟩ := A'.shard hU hj
      have hread := index_readIix_spec bs h4 _ ps 0 (by simpa using h3.rep)
      rw [h3.len] at hread
      obtain ⟨v, hv⟩ := onFiles_some (tr.serve j ++ s j) (render 0 bs)
      exact ⟨_, v, _, by rw [hiix j hj, h2], by rw [hpos j hj, h1, ← onFiles_append, hv], hread⟩
  obtain ⟨q, q1, q2⟩ := startQuery_opened hsrt hy
  refine ⟨_, y, q, .shards hi hs hi', by rw [show tr.setup = [] from A'.run.rep.setup, List.nil_append]; exact hy, q1, fun grow fuel hfuel => ?_⟩
  obtain ⟨i1, i2, ⟨f, i3, i4⟩, i5⟩ := openIndex_inv hy
  rw [F.cfg] at i1
  injection i1 with i1
  rw [← i1] at i5 q2
  obtain ⟨j1, j2⟩ := indexShards_inv _ i5
  obtain ⟨si, hsi⟩ : ∃ s, y.shards[b.toNat % c.numShards.toNat]? = some s := ⟨_, List.getElem?_eq_getElem (by rw [j1]; exact hj)⟩
  obtain ⟨iix, post, k1, k2, k3⟩ := j2 _ si hsi
  rw [Nat.zero_add] at k1 k2
  rw [hiix _ hj, h2] at k1
  rw [hpos _ hj, hsj, h6] at k2
  injection k1 with k1
  injection k2 with k2
  rw [← k1, ← k2] at k3
  obtain ⟨ct, g1, g2, g3, g4⟩ := init_head h3 h4 k3 ho
  have hD := Dangle.new h9 h10 h11
  rw [h7, h8, ← g4, ← g3, e1] at hD
  have hids := A'.fits.left.ids
  obtain ⟨a, b', d1, d2⟩ := F.dmd
  rw [i2] at d2
  injection d2 with d2
  rw [e1] at e2
  refine get_dangle (by omega) (by omega) b hsi g1 g2 hD (D := metaOf (documents h)) (fun id hid => ?_) grow (by omega) q2
  obtain ⟨m1, m2⟩ := idsWith_mem _ (documents h) 1 (by omega) id hid
  exact A'.docid hU d1 d2 i4 (.inr (by rw [← fn, i3])) (added_rooted cwd new) (by omega) (by omega)

include hU A in
/-- **C31**, the operations considered are those of a session: when all of them are done, in any order in which the
goroutines can get them done, the directory is the one the whole session leaves. -/
theorem C31_finished {cd : Dir} (hc : Trace.Finished c.numShards.toNat tr d cd) : cd = d' ∧ History u J c (h ++ [(cwd, new)]) cd := by
  have A' := A.appending hU
  have hR := A'.rep hU
  rw [← hR.nsh] at hc
  have := A'.run.rep.finished ⟨A'.frontFile, fun j s hs => ?_, fun _ _ => rfl⟩ hc
  · subst this
    exact ⟨rfl, .append A.hist A.opened A.run.session⟩
  · have hj : j < c.numShards.toNat := by rw [← hR.nsh]; exact (List.getElem?_eq_some_iff.mp hs).1
    obtain ⟨bs, ps, h1, h2, h3, h4⟩ := A'.dir.small A'.fits.left.posts hj
    have h := A.opened
    simp only [Indexer.open, bind, Except.bind, pure, Except.pure] at h
    revert h
    repeat' (split; · intro h; simp at h)
    intro h
    simp only [Except.ok.injEq] at h
    rename_i xs hxs _ _ _
    rw [← h] at hs
    obtain ⟨iix, post, k1, k2, k3⟩ := openShards_inv _ hxs j s hs
    rw [Nat.zero_add, h2] at k1
    rw [Nat.zero_add, h1] at k2
    injection k1 with k1
    injection k2 with k2
    rw [← k1, ← k2, h3.reopen h4] at k3
    injection k3 with k3
    rw [← k3]
    exact h1

/-- such sessions exist: any documents that fit can be added to any index -/
theorem C31_nonvacuous {u : Uni} {J : CfgCodec} {c : Config} (hU : Usable J c) {h : Sessions} {d : Dir} (hist : History u J c h d) (cwd : Bytes) (new : List Doc)
    (hf : Fits u c (documents h ++ added cwd new)) : ∃ x tr d', Adding u J c h d x cwd new tr d' := by
  have hd := History.rep hU hist hf.left
  obtain ⟨x, h1, h2⟩ := open_rep hU hd hf.left
  obtain ⟨tr, d', hr⟩ := Indexer.Run.exists hU h2 cwd new hf (d := d) (.inr hd.cfg) []
  exact ⟨x, tr, d', hist, h1, hf, hr⟩

end
end Dupi.Props
