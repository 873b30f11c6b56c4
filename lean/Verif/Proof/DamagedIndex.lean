import Verif.Proof.Damaged
import Verif.Props.CrashAppend
/-! # Damaged posting files of an index made by sessions -/

namespace Dupi
open Spec

/-! ## What an index opened after sessions consists of -/

theorem indexOpenShards_rep (srt : Sorter) {d : Dir} (ps : Nat → List Poster) (bs : Nat → List Blk) (vals : Nat → Nat → List UInt32) (n : Nat) : ∀ i,
    (∀ j, i ≤ j → j < i + n → d (.pos j) = some (render 0 (bs j)) ∧ d (.iix j) = some ((ps j).flatMap ShardIndexer.iixEntry) ∧
      ClosedRep 65536 (bs j) (ps j) (vals j) ∧ (render 0 (bs j)).length < 2 ^ 63) →
    Index.openShards srt d n i = .ok ((List.range n).map fun k =>
      ⟨0, (ps (i + k)).map Poster.head, (ps (i + k)).map Poster.total, srt ((ps (i + k)).map Poster.total), render 0 (bs (i + k))⟩) := by
  induction n with
  | zero => intro i _; rfl
  | succ n ih =>
    intro i h
    obtain ⟨h1, h2, h3, h4⟩ := h i (Nat.le_refl _) (by omega)
    have g1 := ih (i + 1) (fun j hj hj' => h j (by omega) (by omega))
    have k1 := index_readIix_spec (bs i) h4 (vals i) (ps i) 0 (by simpa using h3.rep)
    rw [h3.len] at k1
    have k2 : ShardIndex.readIix ShardIndexer.nBlots ((ps i).flatMap ShardIndexer.iixEntry) = _ := k1
    simp only [Index.openShards, Dir.read, h1, h2, bind, Except.bind, k2, g1, pure, Except.pure]
    rw [List.range_succ_eq_map, List.map_cons, List.map_map, List.map_map, List.map_map]
    congr 2
    apply List.map_congr_left
    intro k _
    have e : i + 1 + k = i + (k + 1) := by omega
    show (⟨0, (ps (i + 1 + k)).map Poster.head, (ps (i + 1 + k)).map Poster.total, srt ((ps (i + 1 + k)).map Poster.total), render 0 (bs (i + 1 + k))⟩ : ShardIndex) =
      ⟨0, (ps (i + (k + 1))).map Poster.head, (ps (i + (k + 1))).map Poster.total, srt ((ps (i + (k + 1))).map Poster.total), render 0 (bs (i + (k + 1)))⟩
    rw [e]

/-- the posters and the blocks of the shards of an index made by sessions -/
structure Parts (u : Uni) (c : Config) (d : Dir) (docs : List Document) (ps : Nat → List Poster) (bs : Nat → List Blk) : Prop where
  pos : ∀ j, j < c.numShards.toNat → d (.pos j) = some (render 0 (bs j))
  iix : ∀ j, j < c.numShards.toNat → d (.iix j) = some ((ps j).flatMap ShardIndexer.iixEntry)
  closed : ∀ j, j < c.numShards.toNat → ClosedRep 65536 (bs j) (ps j) (postings (shardPosts u c j 1 docs))
  small : ∀ j, j < c.numShards.toNat → (render 0 (bs j)).length < 2 ^ 63

theorem DirRep.parts {u : Uni} {J : CfgCodec} {c : Config} {d : Dir} {docs : List Document} (h : DirRep u J c d docs) (hf : Fits u c docs) :
    ∃ ps bs, Parts u c d docs ps bs := by
  have key : ∀ j, ∃ r : List Blk × List Poster, j < c.numShards.toNat → d (.pos j) = some (render 0 r.1) ∧ d (.iix j) = some (r.2.flatMap ShardIndexer.iixEntry) ∧
      ClosedRep 65536 r.1 r.2 (postings (shardPosts u c j 1 docs)) ∧ (render 0 r.1).length < 2 ^ 63 := by
    intro j
    by_cases hj : j < c.numShards.toNat
    · obtain ⟨bs, ps, h1⟩ := h.small hf.posts hj
      exact ⟨(bs, ps), fun _ => h1⟩
    · exact ⟨([], []), fun h => absurd h hj⟩
  refine ⟨fun j => (Classical.choose (key j)).2, fun j => (Classical.choose (key j)).1, ?_, ?_, ?_, ?_⟩ <;> intro j hj
  · exact (Classical.choose_spec (key j) hj).1
  · exact (Classical.choose_spec (key j) hj).2.1
  · exact (Classical.choose_spec (key j) hj).2.2.1
  · exact (Classical.choose_spec (key j) hj).2.2.2

/-- the shards of the opened index -/
def shardsOf (srt : Sorter) (n : Nat) (ps : Nat → List Poster) (bs : Nat → List Blk) : List ShardIndex :=
  (List.range n).map fun k => ⟨0, (ps k).map Poster.head, (ps k).map Poster.total, srt ((ps k).map Poster.total), render 0 (bs k)⟩

theorem openIndex_parts {u : Uni} {J : CfgCodec} {c : Config} (hU : Usable J c) (srt : Sorter) {d : Dir} {docs : List Document}
    (h : DirRep u J c d docs) (hf : Fits u c docs) {ps : Nat → List Poster} {bs : Nat → List Blk} (hp : Parts u c d docs ps bs) :
    ∃ t fs, Index.open J srt d = .ok ⟨c, (Dmd.zeroFields :: fs).flatMap Dmd.encode, t, shardsOf srt c.numShards.toNat ps bs⟩ ∧ MetaRep t fs docs := by
  obtain ⟨t, fs, k1, k2, k3⟩ := h.front
  have hsz := k3.small hf.paths
  obtain ⟨t', m1, m2⟩ := Fnames.read_write t k3.wf (by omega) k3.names
  have n1 := indexOpenShards_rep srt (d := d) ps bs (fun j => postings (shardPosts u c j 1 docs)) c.numShards.toNat 0
    (fun j _ hj => ⟨hp.pos j (by omega), hp.iix j (by omega), hp.closed j (by omega), hp.small j (by omega)⟩)
  have hn := hU.shards
  refine ⟨t', fs, ?_, k3.sim m2⟩
  simp only [Nat.zero_add] at n1
  simp only [Index.open, Config.readFrom, Dir.read, h.cfg, hU.codec, hU.check, if_neg (show ¬ c.numShards < 0 by omega),
      k1, k2, m1, n1, bind, Except.bind, pure, Except.pure]
  rfl

/-- looking up any id gives a document or an error; id 0, of no document, gives "/" -/
theorem docid2Doc_tame {t : Fnames.Table} {fs : List Fields} {docs : List Document} (k4 : MetaRep t fs docs) (hr : Rooted docs) (c : Config)
    (xs : List ShardIndex) (id : UInt32) : Tame (Index.docid2Doc ⟨c, (Dmd.zeroFields :: fs).flatMap Dmd.encode, t, xs⟩ id) := by
  by_cases h0 : id.toNat = 0
  · left
    have hl := Dmd.lookup_encode (Dmd.zeroFields :: fs) id (by simp [h0])
    have hz : (Dmd.zeroFields :: fs)[id.toNat]'(by simp [h0]) = Dmd.zeroFields := by simp [h0]
    rw [hz] at hl
    obtain ⟨r, hr0, _⟩ := k4.wf.root
    have ha := k4.wf.abs (v := 0) (cs := []) .root ((List.getElem?_eq_some_iff.mp hr0).1)
    have hz0 : Dmd.zeroFields.fid = 0 := rfl
    simp only [Index.docid2Doc, hl, hz0, ha, bind, Except.bind, pure, Except.pure]
    exact ⟨_, rfl⟩
  · by_cases h1 : id.toNat ≤ docs.length
    · exact .inl ⟨_, docid2Doc_rep k4 hr c xs (by omega) h1⟩
    · right
      have hlen := Dmd.encodeAll_length (Dmd.zeroFields :: fs)
      rw [List.length_cons, k4.len] at hlen
      have : ∃ e, Dmd.lookup ((Dmd.zeroFields :: fs).flatMap Dmd.encode) id = fail e := by
        unfold Dmd.lookup readFull
        rw [if_neg (by rw [List.length_drop, hlen]; unfold Dmd.rcdSize; omega)]
        by_cases he : ((Dmd.zeroFields :: fs).flatMap Dmd.encode).drop (id.toNat * Dmd.rcdSize) = []
        · rw [if_pos he]; exact ⟨_, rfl⟩
        · rw [if_neg he]; exact ⟨_, rfl⟩
      obtain ⟨e, he⟩ := this
      unfold Index.docid2Doc
      simp only [he]
      exact ⟨_, rfl⟩

/-! ## Damage -/

theorem writeAt_drop_le (f w : Bytes) (h : Nat) (hh : h ≤ f.length) : (writeAt f h w).drop h = w ++ f.drop (h + w.length) := by
  unfold writeAt
  rw [List.append_assoc, List.drop_append, List.drop_of_length_le (by rw [List.length_take]; exact Nat.min_le_left _ _),
    List.length_take, List.length_append, List.length_replicate, Nat.min_eq_left (by omega), Nat.sub_self, List.drop_zero, List.nil_append]

theorem writeAt_len_le (f w : Bytes) (h : Nat) (hh : h + w.length ≤ f.length) : (writeAt f h w).length = f.length := by
  unfold writeAt
  rw [List.length_append, List.length_append, List.length_take, List.length_append, List.length_replicate, List.length_drop]
  omega

theorem loop_chunk {f rest : Bytes} {h : Nat} (hd : f.drop h = loopBytes h ++ rest) (h63 : h < 2 ^ 63) : ChunkAt f h 1 9 h := by
  have hlen : h + 10 ≤ f.length := by
    have := congrArg List.length hd
    simp only [loopBytes, List.length_drop, List.length_append, List.length_cons, List.length_nil, be64_length] at this
    omega
  refine ⟨⟨by omega, [], 18, 0 :: (be64 (i64ToU64 h) ++ rest), ?_, rfl, by omega, by simp, by decide, by decide, by decide⟩, by omega, by omega, by omega, i64ToU64 h, ?_, ?_⟩
  · rw [show ((h : Nat) : Int).toNat = h by omega, hd]; rfl
  · rw [show ((h : Int) + (1 : Nat) + 9 - 8).toNat = h + 2 by omega, ← List.drop_drop, hd]
    show getBE64 (be64 (i64ToU64 h) ++ rest) = _
    exact getBE64_be64 _ _
  · exact (u64ToI64_i64ToU64 h (by omega) (by omega)).symm

theorem loop_endless {f : Bytes} {h n : Nat} {v : Int} (hc : ChunkAt f h n v h) : Endless f h := by
  intro k
  refine ⟨h, ?_⟩
  induction k with
  | zero => exact rfl
  | succ k ih => exact ⟨n, v, h, hc, by omega, ih⟩

theorem loop_readNext {f rest : Bytes} {h : Nat} (hd : f.drop h = loopBytes h ++ rest) (h63 : h < 2 ^ 63) (i : Nat) (ds : List UInt32) :
    Posts.readNext ⟨i, h, 0, ds⟩ f = .ok ⟨0, h, 0, [0]⟩ := by
  have hc := loop_chunk hd h63
  have hlen := hc.2.2.2.1
  unfold Posts.readNext
  simp only [bind, Except.bind]
  rw [(readVarintAt_any f h 9 1).mpr hc.1]
  simp only [Posts.wrapErr]
  rw [if_neg (by show ¬ ((9 : Int) < 0 ∨ (530 : Int) < 9); omega)]
  have hr : readAt f (((h : Nat) : Int) + (1 : Nat)) (9 : Int).toNat = .ok (0 :: be64 (i64ToU64 h)) := by
    unfold readAt
    rw [if_neg (by omega), if_neg (by decide), if_pos (by omega), show (((h : Nat) : Int) + (1 : Nat)).toNat = h + 1 by omega, ← List.drop_drop, hd]
    rfl
  rw [hr]
  simp only []
  have hdec : Posts.decodeLoop (0 :: be64 (i64ToU64 h)) ((0 :: be64 (i64ToU64 (h : Int))).length + 1) 0 0 [] = .ok (1, 0, [0]) := rfl
  rw [hdec]
  simp only []
  have hg : getBE64 ((0 :: be64 (i64ToU64 (h : Int))).drop 1) = .ok (i64ToU64 h) := by
    have := getBE64_be64 (i64ToU64 (h : Int)) []
    rw [List.append_nil] at this
    exact this
  rw [hg]
  simp only [pure, Except.pure, u64ToI64_i64ToU64 (h : Int) (by omega) (by omega)]

theorem loop_next {f rest : Bytes} {h : Nat} (hd : f.drop h = loopBytes h ++ rest) (h63 : h < 2 ^ 63) (ds : List UInt32) :
    Posts.next ⟨ds.length, h, 0, ds⟩ f = .ok (0, ⟨1, h, 0, [0]⟩) := by
  unfold Posts.next
  simp only [bind, Except.bind]
  rw [if_pos trivial, if_neg (by omega), loop_readNext hd h63]
  rfl

theorem loop_get (grow : Nat → Nat) (x : Index) {f rest : Bytes} {h : Nat} (hd : f.drop h = loopBytes h ++ rest) (h63 : h < 2 ^ 63)
    {r : Bytes × UInt32 × UInt32} (hr : x.docid2Doc 0 = .ok r) (fuel : Nat) : ∀ (a : UInt32) (b c : Nat) (e : UInt32) (ds : List UInt32) (bl : Blot),
    Query.getLoop grow x false fuel ⟨a, b, c, e, ⟨ds.length, h, 0, ds⟩, f⟩ bl = .error .diverge := by
  induction fuel with
  | zero => intro a b c e ds bl; rfl
  | succ fuel ih =>
    intro a b c e ds bl
    rw [Query.getLoop]
    rw [if_neg (by simp)]
    have hn : ReadState.next ⟨a, b, c, e, ⟨ds.length, h, 0, ds⟩, f⟩ = .ok (0, ⟨a, b, c, e, ⟨1, h, 0, [0]⟩, f⟩) := by
      unfold ReadState.next
      simp only [bind, Except.bind, loop_next hd h63]
      rfl
    rw [hn]
    obtain ⟨b1, hb, _⟩ := Blot.next_unlim grow bl r
    simp only [bind, Except.bind, hb, hr]
    exact ih a b c e [0] _

theorem wild_get (grow : Nat → Nat) (x : Index) {f rest : Bytes} {h : Nat} (hd : f.drop h = 1 :: rest) (fuel : Nat) (a : UInt32) (b c : Nat) (e : UInt32) (bl : Blot) (lim : Bool)
    (hb : lim = true → bl.len ≠ bl.cap) : Query.getLoop grow x lim (fuel + 1) ⟨a, b, c, e, Posts.new h, f⟩ bl = .error .panic := by
  rw [Query.getLoop]
  have hl : ¬ (lim && bl.len == bl.cap) = true := by
    intro hc
    simp only [Bool.and_eq_true, beq_iff_eq] at hc
    exact hb hc.1 hc.2
  rw [if_neg hl]
  have hv : readVarintAt f h = .ok (-1, 1) :=
    (readVarintAt_any f h (-1) 1).mpr ⟨by omega, [], 1, rest, by rw [show ((h : Nat) : Int).toNat = h by omega, hd]; rfl, rfl, by omega, by simp, by decide, by decide, by decide⟩
  have hp : Posts.readNext ⟨0, h, 0, []⟩ f = .error .panic := by
    unfold Posts.readNext
    simp only [bind, Except.bind, hv, Posts.wrapErr]
    rw [if_pos (.inl (by omega))]
  have hn : ReadState.next ⟨a, b, c, e, Posts.new h, f⟩ = .error .panic := by
    unfold ReadState.next Posts.new Posts.next
    simp only [bind, Except.bind, List.length_nil, if_true]
    rw [if_neg (by omega), hp]
  rw [hn]

/-! ## Opening to append -/

theorem readLinks_any (f : Bytes) (ps : List Poster) (h : ∀ p ∈ ps, p.link = -1 ∧ (p.head = -1 ∨ Ends f p.head)) : Tame (ShardIndexer.readLinks f ps) := by
  induction ps with
  | nil => exact .inl ⟨_, rfl⟩
  | cons p ps ih =>
    unfold ShardIndexer.readLinks
    simp only [bind, Except.bind]
    have h1 : Tame (p.readToLink f) := by
      unfold Poster.readToLink
      obtain ⟨g1, g2⟩ := h p (by simp)
      by_cases hh : p.head = -1
      · rw [if_pos hh]; exact .inl ⟨_, rfl⟩
      · rw [if_neg hh, if_neg (by rw [g1]; simp)]
        rcases g2 with g2 | g2
        · exact absurd g2 hh
        · simp only [bind, Except.bind]
          rcases (readToLink_exact f p.head).2.2 g2.1 g2.2 with ⟨l, hl⟩ | ⟨e, he⟩
          · rw [hl]; exact .inl ⟨_, rfl⟩
          · rw [he]; exact .inr ⟨_, rfl⟩
    rcases h1 with ⟨p', hp⟩ | ⟨e, he⟩
    · rw [hp]
      simp only []
      rcases ih (fun q hq => h q (by simp [hq])) with ⟨ps', hps⟩ | ⟨e, he⟩
      · rw [hps]; exact .inl ⟨_, rfl⟩
      · rw [he]; exact .inr ⟨_, rfl⟩
    · rw [he]; exact .inr ⟨_, rfl⟩

theorem readLinks_loop (f : Bytes) (ft : Fault) (ps : List Poster) : ∀ (k : Nat) p, ps[k]? = some p → p.link = -1 → p.head ≠ -1 →
    Poster.readToLinkLoop f (f.length + 1) p.head = .error ft →
    (∀ (i : Nat) q, i < k → ps[i]? = some q → q.head = -1) → ShardIndexer.readLinks f ps = .error ft := by
  induction ps with
  | nil => intro k p h; cases h
  | cons p0 ps ih =>
    intro k p h hl hh he hb
    unfold ShardIndexer.readLinks
    simp only [bind, Except.bind]
    cases k with
    | zero =>
      simp only [List.getElem?_cons_zero, Option.some.injEq] at h
      subst h
      unfold Poster.readToLink
      rw [if_neg hh, if_neg (by rw [hl]; simp)]
      simp only [bind, Except.bind]
      rw [he]
    | succ k =>
      rw [List.getElem?_cons_succ] at h
      have h0 := hb 0 p0 (by omega) rfl
      unfold Poster.readToLink
      rw [if_pos h0]
      simp only []
      rw [ih k p h hl hh he (fun i q hi hq => hb (i + 1) q (by omega) (by rw [List.getElem?_cons_succ]; exact hq))]

theorem initAppend_parts {f : Bytes} {bs : List Blk} {ps : List Poster} {vals : Nat → List UInt32} (h : ClosedRep 65536 bs ps vals) (hl : (render 0 bs).length < 2 ^ 63) :
    ShardIndexer.initAppend ShardIndexer.nBlots ⟨f, ps.flatMap ShardIndexer.iixEntry⟩ =
      (ShardIndexer.readLinks f (ps.map fun p => { p with link := -1 })).map fun qs => ⟨qs, f⟩ := by
  unfold ShardIndexer.initAppend
  have k := readIix_spec bs hl vals ps 0 (by simpa using h.rep)
  rw [h.len] at k
  have k2 : ShardIndexer.readIix ShardIndexer.nBlots (ps.flatMap ShardIndexer.iixEntry) = _ := k
  simp only [bind, Except.bind, k2]
  cases ShardIndexer.readLinks f (ps.map fun p => { p with link := -1 }) <;> rfl

theorem indexerOpen_parts {u : Uni} {J : CfgCodec} {c : Config} (hU : Usable J c) {d d' : Dir} {docs : List Document} (h : DirRep u J c d docs)
    (hf : Fits u c docs) (h1 : ∀ f, (∀ i, f ≠ .pos i) → d' f = d f) :
    ∃ g, Indexer.open J d' = (Indexer.openShards d' c.numShards.toNat 0).map g := by
  obtain ⟨bs, b1, b2, b3⟩ := makeBlotters_rep hU
  obtain ⟨t, fs, k1, k2, k3⟩ := h.front
  have hids := hf.ids
  have hsz := k3.small hf.paths
  obtain ⟨a, g1, g2⟩ := Dmd.newAdder_some c.docFlushRate hU.flush (Dmd.zeroFields :: fs) (by simp) (by simp [k3.len]; omega)
  obtain ⟨t', m1, m2⟩ := Fnames.read_write t k3.wf (by omega) k3.names
  have hn := hU.shards
  have e1 : d' .cfg = _ := (h1 .cfg (fun i => by intro h; cases h)).trans h.cfg
  have e2 : d' .dmd = _ := (h1 .dmd (fun i => by intro h; cases h)).trans k2
  have e3 : d' .fnm = _ := (h1 .fnm (fun i => by intro h; cases h)).trans k1
  refine ⟨fun xs => ⟨c, ⟨t', a, d' .dmd⟩, bs, xs⟩, ?_⟩
  simp only [Indexer.open, Config.readFrom, Dir.read, e1, hU.codec, hU.check, Indexer.makeShards, if_neg (show ¬ c.numShards < 0 by omega),
      TokenConfig.fromConfig, hU.cons.tok, if_true, e2, e3, g1, m1, bind, Except.bind, pure, Except.pure]
  cases Indexer.openShards d' c.numShards.toNat 0 with
  | error e => rfl
  | ok xs => simp only [b1]; rfl

theorem openShards_parts {u : Uni} {c : Config} {d d' : Dir} {docs : List Document} {ps : Nat → List Poster} {bs : Nat → List Blk} (hp : Parts u c d docs ps bs)
    {fs : Nat → Bytes} (h1 : ∀ f, (∀ i, f ≠ .pos i) → d' f = d f) (h2 : ∀ i b, d (.pos i) = some b → d' (.pos i) = some (fs i)) (n : Nat) : ∀ i, i + n ≤ c.numShards.toNat →
    (∀ j, i ≤ j → j < i + n → ∀ p ∈ ps j, p.head = -1 ∨ Ends (fs j) p.head) → Tame (Indexer.openShards d' n i) := by
  induction n with
  | zero => intro i _ _; exact .inl ⟨_, rfl⟩
  | succ n ih =>
    intro i hi he
    have hj : i < c.numShards.toNat := by omega
    have e1 : d'.read (.iix i) = .ok ((ps i).flatMap ShardIndexer.iixEntry) := by
      unfold Dir.read; rw [h1 (.iix i) (fun j => by intro h; cases h), hp.iix i hj]
    have e2 : d'.read (.pos i) = .ok (fs i) := by unfold Dir.read; rw [h2 i _ (hp.pos i hj)]
    unfold Indexer.openShards
    simp only [bind, Except.bind, e1, e2, initAppend_parts (hp.closed i hj) (hp.small i hj)]
    have ht : Tame (ShardIndexer.readLinks (fs i) ((ps i).map fun p => { p with link := -1 })) := by
      apply readLinks_any
      intro p hpm
      obtain ⟨p0, hp0, rfl⟩ := List.mem_map.mp hpm
      exact ⟨rfl, he i (Nat.le_refl _) (by omega) p0 hp0⟩
    rcases ht with ⟨qs, hq⟩ | ⟨e, hq⟩
    · rw [hq]
      simp only [Except.map]
      rcases ih (i + 1) (by omega) (fun j h1 h2 => he j (by omega) (by omega)) with ⟨xs, hx⟩ | ⟨e, hx⟩
      · rw [hx]; exact .inl ⟨_, rfl⟩
      · rw [hx]; exact .inr ⟨_, rfl⟩
    · rw [hq]; exact .inr ⟨_, rfl⟩

theorem openShards_loop {u : Uni} {c : Config} {d d' : Dir} {docs : List Document} {ps : Nat → List Poster} {bs : Nat → List Blk} (hp : Parts u c d docs ps bs)
    {j : Nat} {f : Bytes} (h1 : ∀ g, g ≠ .pos j → d' g = d g) (h2 : d' (.pos j) = some f) {k : Nat} {p : Poster} (hk : (ps j)[k]? = some p) (hh : p.head ≠ -1)
    {ft : Fault} (he : Poster.readToLinkLoop f (f.length + 1) p.head = .error ft) (hb : ∀ (i : Nat) q, i < k → (ps j)[i]? = some q → q.head = -1) (n : Nat) : ∀ i, i + n ≤ c.numShards.toNat → i ≤ j → j < i + n →
    Indexer.openShards d' n i = .error ft := by
  induction n with
  | zero => intro i _ _ _; omega
  | succ n ih =>
    intro i hi h3 h4
    have hj : i < c.numShards.toNat := by omega
    have e1 : d'.read (.iix i) = .ok ((ps i).flatMap ShardIndexer.iixEntry) := by
      unfold Dir.read; rw [h1 (.iix i) (by intro h; cases h), hp.iix i hj]
    by_cases hij : i = j
    · subst hij
      have e2 : d'.read (.pos i) = .ok f := by unfold Dir.read; rw [h2]
      have hl : ShardIndexer.readLinks f ((ps i).map fun p => { p with link := -1 }) = .error ft := by
        refine readLinks_loop f ft _ k { p with link := -1 } (by rw [List.getElem?_map, hk]; rfl) rfl hh he ?_
        intro m q hm hq
        rw [List.getElem?_map] at hq
        cases hg : (ps i)[m]? with
        | none => rw [hg] at hq; cases hq
        | some q0 =>
          rw [hg] at hq
          injection hq with hq
          rw [← hq]
          exact hb m q0 hm hg
      unfold Indexer.openShards
      simp only [bind, Except.bind, e1, e2, initAppend_parts (hp.closed i hj) (hp.small i hj), hl]
      rfl
    · have e2 : d'.read (.pos i) = .ok (render 0 (bs i)) := by
        unfold Dir.read; rw [h1 (.pos i) (by intro h; injection h with h; exact hij h), hp.pos i hj]
      have e3 : ShardIndexer.initAppend ShardIndexer.nBlots ⟨render 0 (bs i), (ps i).flatMap ShardIndexer.iixEntry⟩ = .ok ⟨ps i, render 0 (bs i)⟩ :=
        (hp.closed i hj).reopen (hp.small i hj)
      unfold Indexer.openShards
      simp only [bind, Except.bind, e1, e2, e3]
      rw [ih (i + 1) (by omega) (by omega) (by omega)]

/-! ## Where the list of a bucket begins -/

theorem head_place {bs : List Blk} {ps : List Poster} {vals : Nat → List UInt32} (h : ClosedRep 65536 bs ps vals) {k : Nat} {p : Poster} (hk : ps[k]? = some p)
    (hv : p.head ≠ -1) : ∃ m : Nat, p.head = m ∧ m + 10 ≤ (render 0 bs).length := by
  obtain ⟨hr, _⟩ := h.rep k p hk
  rw [hr.head] at hv ⊢
  obtain ⟨bs1, b, bs2, A, h1, h2, h3, h4, h5, h6⟩ := seek k bs 0 hv
  refine ⟨0 + sizes bs1, h4, ?_⟩
  rw [render_length, h1]
  have hw := h.wf b (by rw [h1]; simp)
  have hpay : 1 ≤ b.payload.length := by
    have := encDeltas_ne hw.ne
    exact List.length_pos_iff.mpr this
  have hhdr : 1 ≤ b.hdr.length := List.length_pos_iff.mpr (putUvarint_ne_nil _)
  have : sizes (bs1 ++ b :: bs2) = sizes bs1 + (b.size + sizes bs2) := by
    simp [sizes]
  rw [this]
  unfold Blk.size
  omega

theorem head_some {bs : List Blk} {ps : List Poster} {vals : Nat → List UInt32} (h : ClosedRep 65536 bs ps vals) {k : Nat} {p : Poster} (hk : ps[k]? = some p)
    (hv : vals k ≠ []) : p.head ≠ -1 := by
  obtain ⟨hr, hpe⟩ := h.rep k p hk
  intro hh
  rw [hr.head] at hh
  obtain ⟨ds, h1, h2⟩ := hr.pend
  have hds : ds = [] := by
    false_or_by_contra
    rename_i hne
    exact encDeltas_ne hne (by rw [← h1]; exact hpe)
  rw [nextOff_owner_none k bs 0 hh, hds, List.append_nil] at h2
  cases hk' : vals k with
  | nil => exact hv hk'
  | cons v vs => rw [hk'] at h2; cases h2

end Dupi
