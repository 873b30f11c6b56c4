import Verif.Proof.CrashRun
import Verif.Proof.CrashAppend
import Verif.Spec.Size
/-! # The sizes of the files of an index -/

namespace Dupi
open Spec

/-! ### Blocks -/

/-- the number of blocks of `o` that are not full -/
def short (o : Nat) (bs : List Blk) : Nat := (bs.filter fun b => decide (b.owner = o) && decide (b.payload.length < 512)).length

theorem short_append (o : Nat) (a b : List Blk) : short o (a ++ b) = short o a + short o b := by
  simp [short, List.filter_append]

theorem short_full (o : Nat) (l : List Blk) (h : ∀ b ∈ l, 512 ≤ b.payload.length) : short o l = 0 := by
  unfold short
  rw [List.length_eq_zero_iff, List.filter_eq_nil_iff]
  intro b hb
  have := h b hb
  simp; omega

theorem short_le (o : Nat) (l : List Blk) : short o l ≤ (l.filter (·.owner = o)).length := by
  unfold short
  rw [← List.filter_filter]
  rw [List.filter_filter, show (fun b : Blk => decide (b.owner = o) && decide (b.payload.length < 512)) =
    fun b => decide (b.payload.length < 512) && decide (b.owner = o) from funext fun b => Bool.and_comm _ _, ← List.filter_filter]
  exact List.length_filter_le _ _

theorem hdr_le {b : Blk} (h : b.WF) : b.hdr.length ≤ 2 := by
  have := h.small
  unfold Blk.hdr putVarint
  apply putUvarint_length_le 1
  unfold zigzag
  split <;> omega

theorem hdr_pos (b : Blk) : 1 ≤ b.hdr.length := putUvarint_length_pos _

/-- a block takes at most 14 bytes for each of its posts -/
theorem size_le14 {b : Blk} (h : b.WF) : b.size ≤ 14 * b.deltas.length := by
  have h1 := hdr_le h
  have h2 : b.payload.length ≤ 5 * b.deltas.length := encDeltas_length_le _
  have h3 := List.length_pos_iff.mpr h.ne
  unfold Blk.size
  by_cases e : b.deltas.length = 1
  · have : b.hdr.length ≤ 1 := by
      unfold Blk.hdr putVarint
      apply putUvarint_length_le 0
      unfold zigzag
      split <;> omega
    omega
  · omega

theorem sizes_le14 (bs : List Blk) (h : ∀ b ∈ bs, b.WF) : sizes bs ≤ 14 * (bs.map fun b => b.deltas.length).sum := by
  induction bs with
  | nil => simp [sizes]
  | cons b bs ih =>
    have h1 := ih (fun c hc => h c (by simp [hc]))
    have h2 := size_le14 (h b (by simp))
    rw [sizes_cons, List.map_cons, List.sum_cons]
    omega

/-- blocks take the space of their posts, and ten bytes for each 512 bytes and for each block that is not full -/
theorem sizes_room (l : List Blk) (h : ∀ b ∈ l, b.WF) :
    sizes l ≤ (l.map fun b => b.payload.length).sum + 10 * ((l.map fun b => b.payload.length).sum / 512 +
      (l.filter fun b => decide (b.payload.length < 512)).length) := by
  have key : ∃ F, 512 * F ≤ (l.map fun b => b.payload.length).sum ∧
      sizes l ≤ (l.map fun b => b.payload.length).sum + 10 * (F + (l.filter fun b => decide (b.payload.length < 512)).length) := by
    induction l with
    | nil => exact ⟨0, by simp, by simp [sizes]⟩
    | cons b l ih =>
      obtain ⟨F, h1, h2⟩ := ih (fun c hc => h c (by simp [hc]))
      have h3 := hdr_le (h b (by simp))
      by_cases e : b.payload.length < 512
      · refine ⟨F, by simp; omega, ?_⟩
        rw [sizes_cons, Blk.size]; simp [e]; omega
      · refine ⟨F + 1, by simp; omega, ?_⟩
        rw [sizes_cons, Blk.size]; simp [e]; omega
  obtain ⟨F, h1, h2⟩ := key
  omega

theorem sizes_ge (l : List Blk) : (l.map fun b => b.payload.length).sum + 9 * l.length ≤ sizes l := by
  induction l with
  | nil => simp [sizes]
  | cons b l ih =>
    have := hdr_pos b
    rw [sizes_cons, Blk.size]
    simp; omega

theorem sum_owners (f : Blk → Nat) (n : Nat) (bs : List Blk) (h : ∀ b ∈ bs, b.owner < n) :
    ((List.range n).map fun o => ((bs.filter (·.owner = o)).map f).sum).sum = (bs.map f).sum := by
  induction bs with
  | nil => simpa using sum_map_zero (List.range n)
  | cons b bs ih =>
    have h1 := ih (fun c hc => h c (by simp [hc]))
    have h2 := sum_indicator b.owner (f b) n
    rw [if_pos (h b (by simp))] at h2
    rw [List.map_cons, List.sum_cons, ← h1, ← h2, ← sum_map_add]
    congr 1
    apply List.map_congr_left
    intro o _
    by_cases e : b.owner = o <;> simp [e]

theorem payloads_flushed (o : Nat) (bs : List Blk) :
    ((bs.filter (·.owner = o)).map fun b => b.payload.length).sum = (encDeltas (flushed o bs)).length := by
  unfold flushed
  generalize bs.filter (·.owner = o) = l
  induction l with
  | nil => rfl
  | cons b l ih =>
    rw [List.map_cons, List.sum_cons, ih, List.flatMap_cons, encDeltas_append, List.length_append]
    rfl

/-! ### One shard -/

theorem ShardOn.addAll_exact {n : Nat} {bs : List Blk} {x : ShardIndexer} {old : List (UInt32 × Nat)} (h : ShardOn bs n x (postings old))
    (posts : List (UInt32 × Nat)) (hb : ∀ q ∈ posts, q.2 < n) (hlen : ∀ b, (postings (old ++ posts) b).length < 2 ^ 32) :
    ∃ x' ex, x.addAll posts = .ok x' ∧ ShardOn (bs ++ ex) n x' (postings (old ++ posts)) ∧ ∀ b ∈ ex, 512 ≤ b.payload.length := by
  induction posts using snocInd with
  | nil => exact ⟨x, [], rfl, by simpa using h, by simp⟩
  | snoc posts a ih =>
    obtain ⟨d, b⟩ := a
    rw [← List.append_assoc] at hlen ⊢
    obtain ⟨y, ex, hy, hrep, hex⟩ := ih (fun q hq => hb q (by simp [hq]))
      (fun b => Nat.lt_of_le_of_lt (postings_mono _ _ _) (hlen b))
    obtain ⟨z, ex', hz, hzr, hex'⟩ := hrep.add_exact d b (hb (d, b) (by simp)) (by rw [pushVal_postings]; exact hlen b)
    rw [pushVal_postings] at hzr
    refine ⟨z, ex ++ ex', ?_, by rw [← List.append_assoc]; exact hzr, ?_⟩
    · rw [ShardIndexer.addAll_append, hy]
      simp [Except.bind, ShardIndexer.addAll, hz, bind]
    · intro c hc
      rcases List.mem_append.mp hc with e | e
      · exact hex c e
      · exact (hex' c e).2

theorem PosterRep.closed {bs : List Blk} {o : Nat} {p : Poster} {vals : List UInt32} (h : PosterRep bs o p vals) (hp : p.posts = []) :
    flushed o bs = deltasFrom 0 vals := by
  obtain ⟨ds, h1, h2⟩ := h.pend
  cases ds with
  | nil => rw [← h2, List.append_nil]
  | cons a l =>
    rw [hp, encDeltas_cons] at h1
    have := putUvarint_length_pos a.toNat
    have := congrArg List.length h1
    simp at this; omega

/-- a session of a shard: at most one more block that is not full for each bucket, and none for buckets that got nothing -/
theorem shard_session {n : Nat} {bs : List Blk} {ps : List Poster} {old : List (UInt32 × Nat)} (hc : ClosedRep n bs ps (postings old))
    {posts : List (UInt32 × Nat)} (hb : ∀ q ∈ posts, q.2 < n) (hlen : ∀ b, (postings (old ++ posts) b).length < 2 ^ 32)
    {x : ShardIndexer} {f : ShardFiles} (h1 : (⟨ps, render 0 bs⟩ : ShardIndexer).addAll posts = .ok x) (h2 : x.close = .ok f) :
    ∃ bs' ps', f.post = render 0 bs' ∧ f.iix = ps'.flatMap ShardIndexer.iixEntry ∧ ClosedRep n bs' ps' (postings (old ++ posts)) ∧
      (∃ ex, bs' = bs ++ ex) ∧ ∀ o, short o bs' ≤ short o bs + (if postings (old ++ posts) o = postings old o then 0 else 1) ∧
        (bs.filter (·.owner = o)).length + (if postings (old ++ posts) o = postings old o then 0 else 1) ≤ (bs'.filter (·.owner = o)).length := by
  have hon : ShardOn bs n ⟨ps, render 0 bs⟩ (postings old) :=
    ⟨rfl, hc.wf, hc.owner, hc.len, fun o p hp => ⟨(hc.rep o p hp).1, by simp [(hc.rep o p hp).2]⟩⟩
  obtain ⟨x', ex, g1, g2, g3⟩ := hon.addAll_exact posts hb hlen
  have := h1.symm.trans g1
  injection this with this
  subst this
  obtain ⟨hf, hwf, how, hn, hp⟩ := g2
  obtain ⟨ps', bs', k1, k2, ex', k3, k4⟩ := flushInd_exact (postings (old ++ posts)) x.ind [] (bs ++ ex) hwf (by simpa [hn] using how)
    (by simpa using hp) (by simp)
  simp only [ShardIndexer.close, hf, k1, bind, Except.bind, pure, Except.pure, Except.ok.injEq] at h2
  subst h2
  refine ⟨bs', ps', rfl, rfl, by simpa [hn] using k2, ⟨ex ++ ex', by rw [k3, List.append_assoc]⟩, fun o => ⟨?_, ?_⟩⟩
  rotate_left
  · rw [k3, List.append_assoc, List.filter_append, List.length_append]
    apply Nat.add_le_add_left
    split
    · exact Nat.zero_le _
    · rename_i hne
      rw [Nat.one_le_iff_ne_zero, ne_eq, List.length_eq_zero_iff]
      intro e
      apply hne
      by_cases ho : o < n
      · have hps : o < ps.length := by rw [hc.len]; exact ho
        have hps' : o < ps'.length := by rw [show ps'.length = n by simpa [hn] using k2.len]; exact ho
        have a1 := (hc.rep o _ (List.getElem?_eq_getElem hps)).1.closed (hc.rep o _ (List.getElem?_eq_getElem hps)).2
        have a2 := k2.rep o _ (by rw [List.nil_append]; exact List.getElem?_eq_getElem hps')
        have a3 := a2.1.closed a2.2
        rw [k3, List.append_assoc, show flushed o (bs ++ (ex ++ ex')) = flushed o bs ++ flushed o (ex ++ ex') by simp [flushed],
          show flushed o (ex ++ ex') = [] by simp only [flushed, e, List.flatMap_nil], List.append_nil] at a3
        rw [← runSum_deltasFrom (postings (old ++ posts) o) 0, ← a3, a1, runSum_deltasFrom]
      · have h0 : posts.filter (fun p => decide (p.2 = o)) = [] := by
          rw [List.filter_eq_nil_iff]
          intro q hq
          have := hb q hq
          simp; omega
        simp [postings, List.filter_append, h0]
  rw [k3, short_append, short_append, short_full o ex g3, Nat.add_zero]
  apply Nat.add_le_add_left
  refine Nat.le_trans (short_le o ex') (Nat.le_trans (k4 o) ?_)
  by_cases e : postings (old ++ posts) o = postings old o
  · rw [if_pos e, if_neg]
    · exact Nat.le_refl _
    · rintro ⟨_, p, hp1, hp2⟩
      rw [List.length_nil, Nat.sub_zero] at hp1
      obtain ⟨ds, d1, d2⟩ := (hp o p hp1).1.pend
      have ho : o < n := by rw [← hn]; exact (List.getElem?_eq_some_iff.mp hp1).1
      have hps : o < ps.length := by rw [hc.len]; exact ho
      obtain ⟨q1, q2⟩ := hc.rep o _ (List.getElem?_eq_getElem hps)
      obtain ⟨ds', d3, d4⟩ := q1.pend
      rw [e, ← d4, show flushed o (bs ++ ex) = flushed o bs ++ flushed o ex by simp [flushed], List.append_assoc] at d2
      have d5 := List.append_cancel_left d2
      have d6 : ds' = [] := by
        cases ds' with
        | nil => rfl
        | cons a l =>
          rw [q2, encDeltas_cons] at d3
          have := putUvarint_length_pos a.toNat
          have := congrArg List.length d3
          simp at this; omega
      rw [d6] at d5
      have d7 := (List.append_eq_nil_iff.mp d5).2
      exact hp2 (by rw [d1, d7]; rfl)
  · rw [if_neg e]; split <;> omega

/-! ### The directory -/

/-- the shards of the directory with the number of their blocks that are not full -/
def Room (u : Uni) (c : Config) (h : Sessions) (d : Dir) : Prop :=
  ∀ j, j < c.numShards.toNat → ∃ bs ps, d (.pos j) = some (render 0 bs) ∧ d (.iix j) = some (ps.flatMap ShardIndexer.iixEntry) ∧
    ClosedRep 65536 bs ps (postings (shardPosts u c j 1 (documents h))) ∧ ∀ o, o < 65536 → short o bs ≤ growths u c h (bucket c j o) ∧
      growths u c h (bucket c j o) ≤ (bs.filter (·.owner = o)).length

theorem idsWith_nil (p : Document → Bool) (l : List Document) : ∀ i, l.any p = false → idsWith p i l = [] := by
  induction l with
  | nil => intro i _; rfl
  | cons s l ih =>
    intro i h
    simp only [List.any_cons, Bool.or_eq_false_iff] at h
    simp [idsWith, h.1, ih (i + 1) h.2]

theorem idsWith_ne_nil (p : Document → Bool) (l : List Document) : ∀ i, l.any p = true → idsWith p i l ≠ [] := by
  induction l with
  | nil => intro i h; simp at h
  | cons s l ih =>
    intro i h
    rw [idsWith]
    split
    · simp
    · rename_i hs
      exact ih (i + 1) (by simpa [hs] using h)

theorem growths_snoc (u : Uni) (c : Config) (h : Sessions) (cwd : Bytes) (docs : List Doc) (b : Nat) :
    growths u c (h ++ [(cwd, docs)]) b = growths u c h b + if (added cwd docs).any (fun d => hasBlot u c d.dat b) then 1 else 0 := by
  unfold growths
  rw [List.countP_append, List.countP_singleton]

theorem Indexer.Session.close {u : Uni} {J : CfgCodec} {cwd : Bytes} {x : Indexer} {docs : List Doc} {d d' : Dir} (h : Indexer.Session u J cwd x docs d d') :
    ∃ rs front k t, x.front.adds cwd docs = .ok (rs, front) ∧ Sched.Steps (x.params u) k (x.start rs) t ∧ t.client = .done ∧
      (∀ j, j < x.shards.length → ∃ f, ((t.servers j).shard).close = .ok f ∧ d' (.pos j) = some f.post ∧ d' (.iix j) = some f.iix) ∧
      ∀ j, x.shards.length ≤ j → d' (.pos j) = d (.pos j) ∧ d' (.iix j) = d (.iix j) := by
  obtain ⟨h1, h2, h3, h4⟩ := h
  rename_i rs front k t
  unfold Indexer.close at h4
  obtain ⟨g1, g2⟩ := closeShards_spec _ _ h4
  refine ⟨rs, front, k, t, h1, h2, h3, g1, fun j hj => ?_⟩
  rw [g2 _ (fun i hi => ⟨by simp; omega, by simp⟩), g2 _ (fun i hi => ⟨by simp, by simp; omega⟩)]
  cases Dmd.close front.dmds front.file <;> simp [Config.writeTo, Dir.set]

/-- one session -/
theorem Session.room {u : Uni} {J : CfgCodec} {c : Config} (hU : Usable J c) {h : Sessions} {x : Indexer} (hx : IndexerRep u c x (documents h))
    {cwd : Bytes} {docs : List Doc} {d d' : Dir} (hs : Indexer.Session u J cwd x docs d d') (hf : Fits u c (documents (h ++ [(cwd, docs)])))
    (hsh : ∀ j, j < c.numShards.toNat → ∃ bs ps, x.shards[j]? = some ⟨ps, render 0 bs⟩ ∧
      ClosedRep 65536 bs ps (postings (shardPosts u c j 1 (documents h))) ∧ ∀ o, o < 65536 → short o bs ≤ growths u c h (bucket c j o) ∧
      growths u c h (bucket c j o) ≤ (bs.filter (·.owner = o)).length) :
    Room u c (h ++ [(cwd, docs)]) d' := by
  intro j hj
  obtain ⟨rs, front, k, t, h1, h2, h3, h4, _⟩ := hs.close
  rw [documents_snoc] at hf ⊢
  obtain ⟨front', g1, _⟩ := Front.adds_rep cwd docs hx.front hf.ids hf.paths
  have e := h1.symm.trans g1
  injection e with e
  injection e with e _
  subst e
  obtain ⟨bs, ps, k1, k2, k3⟩ := hsh j hj
  obtain ⟨m1, _⟩ := session_shards hU hx cwd docs hf h2 h3 hj
  obtain ⟨f, n1, n2, n3⟩ := h4 j (by rw [hx.nsh]; exact hj)
  rw [List.getD_eq_getElem?_getD, k1, Option.getD_some] at m1
  have hids := hf.ids
  have e2 : shardPosts u c j 1 (documents h ++ added cwd docs) =
      shardPosts u c j 1 (documents h) ++ shardPosts u c j ((documents h).length + 1) (added cwd docs) := by
    rw [shardPosts_append, Nat.add_comm]
  obtain ⟨bs', ps', r1, r2, r3, _, r4⟩ := shard_session k2 (shardPosts_bucket u c j _ _) (by
    intro b; rw [← e2]; exact postings_shardPosts_length u c j hj _ (by omega) b) m1 n1
  rw [← e2] at r3 r4
  refine ⟨bs', ps', by rw [n2, r1], by rw [n3, r2], r3, fun o ho => ?_⟩
  have key : (if postings (shardPosts u c j 1 (documents h ++ added cwd docs)) o = postings (shardPosts u c j 1 (documents h)) o then 0 else 1) =
      if (added cwd docs).any (fun d => hasBlot u c d.dat (bucket c j o)) = true then 1 else 0 := ?_
  · have a1 := r4 o
    rw [key] at a1
    rw [growths_snoc]
    have a2 := k3 o ho
    omega
  rw [postings_shardPosts u c j o hj ho _ (by omega), postings_shardPosts u c j o hj ho _ (by simp at hids; omega), idsWith_append]
  by_cases e3 : (added cwd docs).any (fun d => hasBlot u c d.dat (bucket c j o)) = true
  · rw [if_pos e3, if_neg]
    intro e4
    have := idsWith_ne_nil (fun d => hasBlot u c d.dat (bucket c j o)) (added cwd docs) (1 + (documents h).length) e3
    exact this (List.append_cancel_left (e4.trans (List.append_nil _).symm))
  · rw [if_neg e3]
    have := idsWith_nil (fun d => hasBlot u c d.dat (bucket c j o)) (added cwd docs) (1 + (documents h).length) (by simpa using e3)
    unfold bucket at this
    rw [this, List.append_nil, if_pos rfl]

/-- after any history -/
theorem History.room {u : Uni} {J : CfgCodec} {c : Config} (hU : Usable J c) {h : Sessions} {d : Dir} (hh : History u J c h d)
    (hf : Fits u c (documents h)) : Room u c h d := by
  induction hh with
  | create h1 h2 =>
    rename_i x cwd docs d
    obtain ⟨y, g1, g2⟩ := create_rep (u := u) hU
    have := h1.symm.trans g1
    injection this with this
    subst this
    refine Session.room (h := []) hU g2 h2 hf fun j hj => ?_
    have hjx : j < x.shards.length := by rw [g2.nsh]; exact hj
    have hsh : x.shards = List.replicate c.numShards.toNat (ShardIndexer.initCreate ShardIndexer.nBlots) := by
      have h3 := h1
      have hn := hU.shards
      unfold Indexer.create at h3
      simp only [Indexer.makeShards, if_neg (show ¬ c.numShards < 0 by omega), bind, Except.bind, pure, Except.pure] at h3
      split at h3
      · cases h3
      · split at h3
        · cases h3
        · split at h3
          · cases h3
          · injection h3 with h3; rw [← h3]
    refine ⟨[], (ShardIndexer.initCreate ShardIndexer.nBlots).ind, ?_, ?_, fun o ho => by simp [short, growths]⟩
    · rw [hsh, List.getElem?_replicate, if_pos hj]; rfl
    · refine ⟨by simp, by simp, by simp [ShardIndexer.initCreate], fun o p hp => ?_⟩
      simp only [ShardIndexer.initCreate, List.getElem?_replicate] at hp
      split at hp
      · injection hp with hp; subst hp
        exact ⟨⟨rfl, rfl, ⟨[], by simp [Poster.initCommon, encDeltas], by simp [flushed, deltasFrom, documents, shardPosts, postings, compress]⟩,
          by simp [documents, shardPosts, postings, compress, Poster.initCommon], by simp [documents, shardPosts, postings, compress, Poster.initCommon]⟩,
          by simp [Poster.initCommon]⟩
      · simp at hp
  | append h1 h2 h3 ih =>
    rename_i hist d0 d1 x cwd docs
    have hf' := hf
    rw [documents_snoc] at hf'
    have hr := History.rep hU h1 hf'.left
    have ih := ih hf'.left
    obtain ⟨y, g1, g2⟩ := open_rep hU hr hf'.left
    have := h2.symm.trans g1
    injection this with this
    subst this
    refine Session.room hU g2 h3 hf fun j hj => ?_
    obtain ⟨bs, ps, k1, k2, k3, k4⟩ := ih j hj
    have hl : (render 0 bs).length < 2 ^ 63 := by
      have h4 := k3.size
      have h5 := shardPosts_length u c j (documents hist) 1
      have h6 := hf'.left.posts
      omega
    have hjx : j < x.shards.length := by rw [g2.nsh]; exact hj
    refine ⟨bs, ps, ?_, k3, k4⟩
    have hsh : ∃ xs, Indexer.openShards d0 c.numShards.toNat 0 = .ok xs ∧ x.shards = xs := by
      have hn := hU.shards
      have h7 := h2
      simp only [Indexer.open, Config.readFrom, Dir.read, hr.cfg, hU.codec, hU.check, Indexer.makeShards, if_neg (show ¬ c.numShards < 0 by omega),
        bind, Except.bind, pure, Except.pure] at h7
      cases ho : Indexer.openShards d0 c.numShards.toNat 0 with
      | error e => simp only [ho] at h7; repeat (first | cases h7 | split at h7)
      | ok xs =>
        refine ⟨xs, rfl, ?_⟩
        simp only [ho] at h7
        repeat (first | (injection h7 with h7; rw [← h7]; done) | cases h7 | split at h7)
    obtain ⟨xs, e1, e2⟩ := hsh
    subst e2
    obtain ⟨iix, post, m1, m2, m3⟩ := openShards_inv _ e1 j _ (List.getElem?_eq_getElem hjx)
    rw [Nat.zero_add] at m1 m2
    rw [k1] at m2; rw [k2] at m1
    injection m1 with m1; injection m2 with m2
    subst m1 m2
    rw [k3.reopen hl] at m3
    injection m3 with m3
    rw [List.getElem?_eq_getElem hjx, ← m3]

/-! ### The size of the texts -/

theorem word_runs (f : Char → Bool) (xs : List Char) :
    2 * ((runs f xs).filter (·.1)).length ≤ xs.length + (match runs f xs with | (true, _) :: _ => 1 | _ => 0) := by
  induction xs with
  | nil => simp [runs]
  | cons x xs ih =>
    rw [runs]
    cases hr : runs f xs with
    | nil => cases f x <;> simp
    | cons g gs =>
      obtain ⟨w, g⟩ := g
      rw [hr] at ih
      cases w <;> cases hf : f x <;> simp at ih ⊢ <;> omega

/-- a text has at most one word for two bytes -/
theorem wordChars_le (u : Uni) (dat : Bytes) : 2 * (wordChars u dat).length ≤ dat.length := by
  unfold wordChars
  cases ht : text dat with
  | none => simp
  | some cs =>
    have h1 := word_runs (isWordChar u) cs.dropLast
    have h2 : (match runs (isWordChar u) cs.dropLast with | (true, _) :: _ => 1 | _ => 0) ≤ (if cs.dropLast = [] then 0 else 1) := by
      by_cases e : cs.dropLast = []
      · simp [e, runs]
      · rw [if_neg e]; split <;> omega
    have h3 : cs.length ≤ dat.length := by
      rw [text_some ht]
      clear ht h1 h2
      induction cs with
      | nil => simp [utf8]
      | cons c cs ih =>
        have h5 : 0 < (String.utf8EncodeChar c).length := by rw [String.length_utf8EncodeChar]; exact Char.utf8Size_pos c
        simp only [utf8, List.flatMap_cons, List.length_append, List.length_cons] at ih ⊢
        omega
    rw [List.length_map]
    by_cases e : cs.dropLast = []
    · rw [if_pos e] at h2
      rw [e] at h1 h2 ⊢
      simp [runs]
    · rw [if_neg e] at h2
      have h4 : 0 < cs.dropLast.length := List.length_pos_iff.mpr e
      rw [List.length_dropLast] at h1 h4
      show 2 * (List.filter (fun x => x.fst) (runs (isWordChar u) cs.dropLast)).length ≤ _
      omega

end Dupi
