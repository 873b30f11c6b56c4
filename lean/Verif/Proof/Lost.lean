import Verif.Proof.CutAppend
import Verif.Proof.Index
import Verif.Proof.Passage
/-! # Sessions on an index that lost records of documents -/

namespace Dupi
open Spec

/-! ## The caller's part -/

/-- adding a document when the table of paths is that of `docs`, whatever the records are -/
theorem Front.add_on {x : Front} {docs : List Document} {fs hist : List Fields} (hd : Dmd.Inv x.dmds x.file hist) (hm : MetaRep x.fnames fs docs)
    (cwd : Bytes) (doc : Doc) (h1 : hist.length < 2 ^ 32) (h2 : FewPaths ((docs ++ added cwd [doc]).map fun s => s.path)) :
    ∃ id x' f, x.add cwd doc = .ok (id, x') ∧ id.toNat = hist.length ∧ Dmd.Inv x'.dmds x'.file (hist ++ [f]) ∧
      MetaRep x'.fnames (fs ++ [f]) (docs ++ added cwd [doc]) := by
  have hsz := hm.size
  rw [added_paths] at h2
  have hpl : ((docs ++ added cwd [doc]).map fun s => s.path.length).sum =
      (docs.map fun s => s.path.length).sum + (absPath cwd doc.path).length := by simp [added, absPath_place]
  obtain ⟨ids, t', g1, g2, g3, g4, g5, g6, _, g7, gc, g8⟩ := Fnames.addAll_spec cwd [doc.path] hm.wf hm.names hm.onPaths h2
  obtain ⟨id, hid, hlt, hc⟩ := g8 0 doc.path rfl
  have haddp : Fnames.addPath cwd x.fnames doc.path = .ok (id, t') := by
    simp only [Fnames.addAll, bind, Except.bind] at g1
    cases he : Fnames.addPath cwd x.fnames doc.path with
    | error e => simp [he] at g1
    | ok r =>
      obtain ⟨a, b⟩ := r
      simp only [he, pure, Except.pure, Except.ok.injEq, Prod.mk.injEq] at g1
      obtain ⟨rfl, rfl⟩ := g1
      simp at hid; subst hid; rfl
  obtain ⟨k1, k2⟩ := Dmd.add_inv hd ⟨id, doc.start, doc.stop⟩ h1
  refine ⟨(Dmd.add x.dmds x.file ⟨id, doc.start, doc.stop⟩).1, ⟨t', (Dmd.add x.dmds x.file ⟨id, doc.start, doc.stop⟩).2.1,
    (Dmd.add x.dmds x.file ⟨id, doc.start, doc.stop⟩).2.2⟩, ⟨id, doc.start, doc.stop⟩, ?_, k2, k1, ?_⟩
  · simp [Front.add, haddp, bind, Except.bind, pure, Except.pure]
  · refine ⟨g2, g3, ?_, by simp [hm.len, added], ?_, ?_⟩
    · rw [hpl]; simp [Fnames.pathBytes] at g6; show t'.length ≤ _; omega
    · intro k f s hf hs
      simp only [List.getElem?_append, hm.len] at hf hs
      by_cases hk : k < docs.length
      · simp only [hk, if_true] at hf hs
        exact (hm.desc k f s hf hs).mono g5 g7
      · simp only [hk, if_false] at hf hs
        have h0 : k - docs.length = 0 := by
          false_or_by_contra
          rw [List.getElem?_eq_none (by simp; omega)] at hf; cases hf
        rw [h0] at hf hs
        simp only [List.getElem?_cons_zero, Option.some.injEq, added, List.map_cons, List.map_nil] at hf hs
        subst hf hs
        rw [absPath_place] at hc
        exact ⟨rfl, rfl, hlt, hc⟩
    · intro i cs hcs
      rcases gc i cs hcs with h | ⟨q, hq, h⟩
      · rcases hm.cover i cs h with h | ⟨s, h1, h2⟩
        · exact .inl h
        · exact .inr ⟨s, by simp [h1], h2⟩
      · rw [Fnames.absPaths, List.map_singleton, List.mem_singleton] at hq
        exact .inr ⟨⟨placeName (place cwd doc.path), doc.start, doc.stop, doc.dat.getD []⟩, by simp [added], by rw [← absPath_place, ← hq]; exact h⟩

theorem Front.adds_on (cwd : Bytes) (new : List Doc) : ∀ {x : Front} {docs : List Document} {fs hist : List Fields}, Dmd.Inv x.dmds x.file hist →
    MetaRep x.fnames fs docs → hist.length + new.length ≤ 2 ^ 32 → FewPaths ((docs ++ added cwd new).map fun s => s.path) →
    ∃ x' gs, x.adds cwd new = .ok (reqs hist.length new, x') ∧ gs.length = new.length ∧ Dmd.Inv x'.dmds x'.file (hist ++ gs) ∧
      MetaRep x'.fnames (fs ++ gs) (docs ++ added cwd new) := by
  induction new with
  | nil => intro x docs fs hist hd hm _ _; exact ⟨x, [], rfl, rfl, by simpa using hd, by simpa [added] using hm⟩
  | cons d new ih =>
    intro x docs fs hist hd hm h1 h2
    have e : docs ++ added cwd (d :: new) = (docs ++ added cwd [d]) ++ added cwd new := by simp [added]
    rw [e] at h2 ⊢
    rw [List.length_cons] at h1
    obtain ⟨id, x1, f, g1, g2, g3, g4⟩ := Front.add_on hd hm cwd d (by omega) (Fnames.FewPaths.mono (fun p hp => by rw [List.map_append]; exact List.mem_append_left _ hp) h2)
    obtain ⟨x2, gs, k1, k2, k3, k4⟩ := ih g3 g4 (by rw [List.length_append, List.length_singleton]; omega) h2
    have hid : id = UInt32.ofNat hist.length := by
      apply UInt32.toNat_inj.mp; rw [g2]; simp only [UInt32.toNat_ofNat']; omega
    rw [List.length_append, List.length_singleton] at k1
    refine ⟨x2, f :: gs, ?_, by simp [k2], by simpa using k3, by simpa using k4⟩
    simp [Front.adds, g1, k1, bind, Except.bind, pure, Except.pure, reqs, hid]

/-! ## The goroutines -/

/-- the open indexer `x`: the next id is `k + 1`, and the shards hold the posts `old` -/
structure HeldRep (u : Uni) (c : Config) (x : Indexer) (k : Nat) (old : Nat → List (UInt32 × Nat)) : Prop where
  cfg : x.config = c
  last : (Dmd.last x.front.dmds).toNat = k
  nw : x.blotters.length = c.numShatters.toNat
  bl : ∀ b ∈ x.blotters, ∃ l, BlotRepL b c.blotConfig.seqLen.toNat c.blotConfig.interleave.toNat l
  nsh : x.shards.length = c.numShards.toNat
  sh : ∀ (j : Nat) s, x.shards[j]? = some s → ShardRep 65536 s (postings (old j))

/-- there is room for the documents `new` -/
structure Roomy (u : Uni) (c : Config) (k : Nat) (old : Nat → List (UInt32 × Nat)) (cwd : Bytes) (new : List Doc) : Prop where
  ids : k + new.length + 1 < 2 ^ 32
  room : ∀ j, j < c.numShards.toNat → ∀ m, m ≤ new.length → ∀ b, (postings (old j ++ shardPosts u c j (k + 1) (added cwd (new.take m))) b).length < 2 ^ 32

/-- the goroutine system of a session adding `new` -/
def heldEnv {u : Uni} {J : CfgCodec} {c : Config} {x : Indexer} {k : Nat} {old : Nat → List (UInt32 × Nat)} (hU : Usable J c) (h : HeldRep u c x k old)
    (cwd : Bytes) (new : List Doc) (hf : Roomy u c k old cwd new) : Sched.Env Blotter ShardIndexer (UInt32 × Bytes) Post where
  P := x.params u
  b0 := fun w => x.blotters.getD w (.circ ⟨[], 0, 0⟩)
  s0 := fun j => x.shards.getD j ⟨[], []⟩
  last := Dmd.last x.front.dmds
  docs := reqs (k + 1) new
  out := fun did d j => outPosts u c did d.2 j
  Iw := fun b => ∃ l, BlotRepL b c.blotConfig.seqLen.toNat c.blotConfig.interleave.toNat l
  iw0 := by
    intro w hw
    change w < x.blotters.length at hw
    rw [List.getD_eq_getElem?_getD, List.getElem?_eq_getElem hw]
    exact h.bl _ (List.getElem_mem hw)
  hcompute := by
    rintro b did ⟨off, dat⟩ ⟨l, hl⟩
    have hn := h.nsh
    have h1 := hU.shards
    have h2 := hU.shardsSmall
    obtain ⟨b', g1, g2⟩ := compute_spec u _ _ x.shards.length (by omega) (by omega) b l hl did off dat
    refine ⟨b', ?_, _, g2⟩
    simp only [Indexer.params, h.cfg, hU.cons.seqLen_eq, g1, bind, Except.bind, pure, Except.pure]
    simp only [outPosts, blotsOf_eq, ← hn]
  ids := by
    intro i r hr
    have hlen := hf.ids
    rw [h.last]
    rw [reqs_getElem, Option.map_eq_some_iff] at hr
    obtain ⟨d, hd', rfl⟩ := hr
    have hk : i < new.length := (List.getElem?_eq_some_iff.mp hd').1
    simp only [UInt32.toNat_ofNat']
    omega

section
variable {u : Uni} {J : CfgCodec} {c : Config} {x : Indexer} {k : Nat} {old : Nat → List (UInt32 × Nat)} (hU : Usable J c) (h : HeldRep u c x k old)
  (cwd : Bytes) (new : List Doc) (hf : Roomy u c k old cwd new)

theorem heldEnv_base : (heldEnv hU h cwd new hf).base = k := by
  exact h.last

theorem heldEnv_batches (m j : Nat) (hm : m ≤ new.length) :
    (heldEnv hU h cwd new hf).batches (k + m) j = (reqs (k + 1) (new.take m)).map fun x => outPosts u c x.1 x.2.2 j := by
  have hb := heldEnv_base hU h cwd new hf
  rw [Sched.Env.batches_take _ _ _ (by rw [hb]; show _ ≤ k + (reqs _ _).length; rw [reqs_length]; omega), hb]
  show List.map (fun x => outPosts u c x.1 x.2.2 j) (List.take (k + m - k) (reqs (k + 1) new)) = _
  congr 1
  rw [Nat.add_sub_cancel_left]
  apply List.ext_getElem?
  intro i
  rw [List.getElem?_take, reqs_getElem, reqs_getElem, List.getElem?_take]
  split <;> simp

theorem heldEnv_posts (m j : Nat) (hj : j < c.numShards.toNat) (hm : m ≤ new.length) :
    ((heldEnv hU h cwd new hf).batches (k + m) j).flatten.map serveBucket =
      shardPosts u c j (k + 1) (added cwd (new.take m)) := by
  have := hU.shardsSmall
  rw [heldEnv_batches hU h cwd new hf m j hm, reqs_posts u c j hj (by omega) cwd]

theorem held_shard (m j : Nat) (hj : j < c.numShards.toNat) (hm : m ≤ new.length) :
    ∃ y, Sched.serveAll (x.params u).serve (x.shards.getD j ⟨[], []⟩) ((heldEnv hU h cwd new hf).batches (k + m) j).flatten = .ok y ∧
      ShardRep 65536 y (postings (old j ++ shardPosts u c j (k + 1) (added cwd (new.take m)))) := by
  have hjx : j < x.shards.length := by rw [h.nsh]; exact hj
  have hs := h.sh j _ (List.getElem?_eq_getElem hjx)
  rw [show (x.params u).serve = fun s p => let (d, b) := serveBucket p; s.add d b from rfl, serveAll_addAll,
    heldEnv_posts hU h cwd new hf m j hj hm, List.getD_eq_getElem?_getD, List.getElem?_eq_getElem hjx, Option.getD_some]
  apply hs.addAll
  · exact shardPosts_bucket u c j _ _
  · exact hf.room j hj m hm

theorem heldEnv_serves : (heldEnv hU h cwd new hf).Serves := by
  intro j hj
  have hj : j < c.numShards.toNat := by rw [← h.nsh]; exact hj
  obtain ⟨y, hy, _⟩ := held_shard hU h cwd new hf new.length j hj (Nat.le_refl _)
  rw [heldEnv_base]
  refine ⟨y, ?_⟩
  show Sched.serveAll (x.params u).serve (x.shards.getD j ⟨[], []⟩) ((heldEnv hU h cwd new hf).batches (k + (reqs _ _).length) j).flatten = .ok y
  rw [reqs_length]; exact hy

theorem heldEnv_inv {st : Nat} {t : Sched.St Blotter ShardIndexer (UInt32 × Bytes) Post}
    (ht : Sched.Steps (x.params u) st (x.start (reqs (k + 1) new)) t) : Sched.Inv (heldEnv hU h cwd new hf) t :=
  Sched.Steps.inv (Γ := heldEnv hU h cwd new hf) ht Sched.Inv.init

include hU h hf in
/-- at the end of a session the shards hold all the documents -/
theorem held_shards {st : Nat} {t : Sched.St Blotter ShardIndexer (UInt32 × Bytes) Post}
    (ht : Sched.Steps (x.params u) st (x.start (reqs (k + 1) new)) t) (hc : t.client = .done) {j : Nat} (hj : j < c.numShards.toNat) :
    (x.shards.getD j ⟨[], []⟩).addAll (shardPosts u c j (k + 1) (added cwd new)) = .ok (t.servers j).shard ∧
    ShardRep 65536 (t.servers j).shard (postings (old j ++ shardPosts u c j (k + 1) (added cwd new))) := by
  have hi := heldEnv_inv hU h cwd new hf ht
  have hd := hi.done hc
  have hjn : j < (heldEnv hU h cwd new hf).P.n := by show j < x.shards.length; rw [h.nsh]; exact hj
  have := (hi.allDone hd (by rw [hc]; intro ds; exact nofun) hjn).2
  obtain ⟨y, hy, hr⟩ := held_shard hU h cwd new hf new.length j hj (Nat.le_refl _)
  rw [heldEnv_base, show (heldEnv hU h cwd new hf).docs.length = new.length from reqs_length _ _] at this
  have h2 := this.symm.trans hy
  injection h2 with h2
  rw [h2]
  rw [List.take_length] at hr
  refine ⟨?_, hr⟩
  rw [← hy, show (x.params u).serve = fun s p => let (d, b) := serveBucket p; s.add d b from rfl, serveAll_addAll,
    heldEnv_posts hU h cwd new hf new.length j hj (Nat.le_refl _), List.take_length]

include hU h hf in
/-- there is a complete execution -/
theorem held_runs : ∃ st t, Sched.Steps (x.params u) st (x.start (reqs (k + 1) new)) t ∧ t.client = .done := by
  have hnw : 0 < (heldEnv hU h cwd new hf).P.nw := by
    show 0 < x.blotters.length
    rw [h.nw]; have := hU.shatters; omega
  have key : ∀ m st s, Sched.Steps (x.params u) st (x.start (reqs (k + 1) new)) s → Sched.measure (x.params u) s ≤ m →
      ∃ st t, Sched.Steps (x.params u) st (x.start (reqs (k + 1) new)) t ∧ t.client = .done := by
    intro m
    induction m with
    | zero =>
      intro st s hs hm
      have hi := heldEnv_inv hU h cwd new hf hs
      rcases hi.progress (heldEnv_serves hU h cwd new hf) hnw with hfin | ⟨t, ht⟩
      · exact ⟨st, s, hs, hfin.1⟩
      · have := Sched.Step.decreases ht
        change _ < Sched.measure (x.params u) s at this
        omega
    | succ m ih =>
      intro st s hs hm
      have hi := heldEnv_inv hU h cwd new hf hs
      rcases hi.progress (heldEnv_serves hU h cwd new hf) hnw with hfin | ⟨t, ht⟩
      · exact ⟨st, s, hs, hfin.1⟩
      · have := Sched.Step.decreases ht
        change Sched.measure (x.params u) t < Sched.measure (x.params u) s at this
        exact ih (st + 1) t (.step hs ht) (by omega)
  exact key _ 0 _ .refl (Nat.le_refl _)

end


/-! ## Posting lists with ids given twice -/

theorem mem_postings (posts : List (UInt32 × Nat)) (b : Nat) (v : UInt32) : v ∈ postings posts b ↔ (v, b) ∈ posts := by
  induction posts using snocInd with
  | nil => simp [postings, compress]
  | snoc l p ih =>
    obtain ⟨d, c⟩ := p
    rw [postings_snoc, List.mem_append, List.mem_singleton, ← ih]
    by_cases hc : c = b
    · rw [if_pos hc]
      by_cases hl : (postings l b).getLast? = some d
      · rw [if_pos hl]
        constructor
        · exact .inl
        · rintro (h | h)
          · exact h
          · injection h with h1 _
            rw [h1]; exact List.mem_of_getLast? hl
      · rw [if_neg hl]; simp [hc]
    · rw [if_neg hc]
      constructor
      · exact .inl
      · rintro (h | h)
        · exact h
        · injection h with _ h2
          exact absurd h2.symm hc

theorem postings_append_length (a : List (UInt32 × Nat)) (q : Nat) (b : List (UInt32 × Nat)) :
    (postings (a ++ b) q).length ≤ (postings a q).length + (postings b q).length ∧
    (postings b q ≠ [] → (postings (a ++ b) q).getLast? = (postings b q).getLast?) := by
  induction b using snocInd with
  | nil => simp [postings, compress]
  | snoc l p ih =>
    obtain ⟨d, c⟩ := p
    obtain ⟨h1, h2⟩ := ih
    rw [← List.append_assoc, postings_snoc, postings_snoc]
    by_cases hc : c = q
    · rw [if_pos hc, if_pos hc]
      by_cases hl : (postings l q).getLast? = some d
      · have hne : postings l q ≠ [] := by intro e; rw [e] at hl; simp at hl
        rw [if_pos hl, if_pos ((h2 hne).trans hl)]
        exact ⟨h1, h2⟩
      · rw [if_neg hl]
        by_cases hl' : (postings (a ++ l) q).getLast? = some d
        · rw [if_pos hl']
          refine ⟨by rw [List.length_append]; omega, fun _ => ?_⟩
          rw [hl']; simp
        · rw [if_neg hl']
          refine ⟨by simp only [List.length_append, List.length_singleton]; omega, fun _ => by simp⟩
    · rw [if_neg hc, if_neg hc]; exact ⟨h1, h2⟩

theorem blotsOf_nil (u : Uni) (c : Config) : blotsOf u c [] = [] :=
  List.length_eq_zero_iff.mp (Nat.le_zero.mp (blotsOf_length_le u c []))

/-- documents that take up ids and have no blots -/
def blanks (k : Nat) : List Document := List.replicate k ⟨[], 0, 0, []⟩

theorem shardPosts_blanks (u : Uni) (c : Config) (j k : Nat) : ∀ i, shardPosts u c j i (blanks k) = [] := by
  induction k with
  | zero => intro i; rfl
  | succ k ih =>
    intro i
    rw [blanks, List.replicate_succ, shardPosts, blotsOf_nil]
    exact ih (i + 1)

theorem idsWith_blanks (u : Uni) (c : Config) (b k : Nat) : ∀ i, idsWith (fun s => hasBlot u c s.dat b) i (blanks k) = [] := by
  induction k with
  | zero => intro i; rfl
  | succ k ih =>
    intro i
    rw [blanks, List.replicate_succ, idsWith, if_neg (by simp [hasBlot, blotsOf_nil])]
    exact ih (i + 1)

/-- posting lists of documents with ids from `k + 1` on -/
theorem postings_from (u : Uni) (c : Config) (j q k : Nat) (hj : j < c.numShards.toNat) (hq : q < 65536) (docs : List Document)
    (hlen : k + docs.length < 2 ^ 32) :
    postings (shardPosts u c j (k + 1) docs) q = idsWith (fun s => hasBlot u c s.dat (q * c.numShards.toNat + j)) (k + 1) docs := by
  have h := postings_shardPosts u c j q hj hq (blanks k ++ docs) (by simpa [blanks] using hlen)
  rw [shardPosts_append, shardPosts_blanks, idsWith_append, idsWith_blanks, List.nil_append, List.nil_append] at h
  rw [show k + 1 = 1 + (blanks k).length by simp [blanks]; omega]
  exact h

theorem idsWith_iff (p : Document → Bool) (a : List Document) : ∀ i, i + a.length ≤ 2 ^ 32 → ∀ v : UInt32,
    v ∈ idsWith p i a ↔ ∃ (n : Nat) (s : Document), a[n]? = some s ∧ p s = true ∧ v.toNat = i + n := by
  induction a with
  | nil => intro i _ v; simp [idsWith]
  | cons s a ih =>
    intro i hi v
    rw [List.length_cons] at hi
    have h0 : v = UInt32.ofNat i ↔ v.toNat = i := by
      rw [← UInt32.toNat_inj, UInt32.toNat_ofNat', Nat.mod_eq_of_lt (by omega)]
    have hr : (∃ (n : Nat) (t : Document), (s :: a)[n]? = some t ∧ p t = true ∧ v.toNat = i + n) ↔
        (p s = true ∧ v.toNat = i) ∨ v ∈ idsWith p (i + 1) a := by
      rw [ih (i + 1) (by omega) v]
      constructor
      · rintro ⟨n, t, h1, h2, h3⟩
        cases n with
        | zero =>
          rw [List.getElem?_cons_zero] at h1
          injection h1 with h1
          subst h1
          exact .inl ⟨h2, h3⟩
        | succ n => exact .inr ⟨n, t, by simpa using h1, h2, by omega⟩
      · rintro (⟨h1, h2⟩ | ⟨n, t, h1, h2, h3⟩)
        · exact ⟨0, s, rfl, h1, h2⟩
        · exact ⟨n + 1, t, by simpa using h1, h2, by omega⟩
    rw [hr, idsWith]
    by_cases hp : p s = true
    · rw [if_pos hp, List.mem_cons, h0]; simp [hp]
    · rw [if_neg hp]; simp [hp]

/-- the posts of the shards after documents `new` were added with ids from `k + 1` on -/
def twicePosts (u : Uni) (c : Config) (docs : List Document) (k : Nat) (new : List Document) (j : Nat) : List (UInt32 × Nat) :=
  shardPosts u c j 1 docs ++ shardPosts u c j (k + 1) new

theorem twicePosts_length (u : Uni) (c : Config) (docs : List Document) (k : Nat) (new : List Document) (j : Nat) :
    (twicePosts u c docs k new j).length ≤ numBlots u c (docs ++ new) := by
  rw [twicePosts, List.length_append, numBlots_append]
  have := shardPosts_length u c j docs 1
  have := shardPosts_length u c j new (k + 1)
  omega

theorem twice_mem (u : Uni) (c : Config) (docs : List Document) (k : Nat) (new : List Document) {j q : Nat} (hj : j < c.numShards.toNat)
    (hq : q < 65536) (h1 : docs.length < 2 ^ 32 - 1) (h2 : k + new.length < 2 ^ 32 - 1) (v : UInt32) :
    v ∈ postings (twicePosts u c docs k new j) q ↔
      (∃ (n : Nat) (s : Document), docs[n]? = some s ∧ hasBlot u c s.dat (q * c.numShards.toNat + j) = true ∧ v.toNat = n + 1) ∨
      ∃ (n : Nat) (s : Document), new[n]? = some s ∧ hasBlot u c s.dat (q * c.numShards.toNat + j) = true ∧ v.toNat = k + n + 1 := by
  rw [mem_postings, twicePosts, List.mem_append, ← mem_postings, ← mem_postings, postings_shardPosts u c j q hj hq docs (by omega),
    postings_from u c j q k hj hq new (by omega), idsWith_iff _ _ _ (by omega), idsWith_iff _ _ _ (by omega)]
  simp only [Nat.add_comm 1, Nat.add_right_comm k 1]

theorem twice_length (u : Uni) (c : Config) (docs : List Document) (k : Nat) (new : List Document) {j : Nat} (hj : j < c.numShards.toNat)
    (q : Nat) (h1 : docs.length < 2 ^ 32) (h2 : k + new.length < 2 ^ 32) :
    (postings (twicePosts u c docs k new j) q).length ≤ docs.length + new.length := by
  by_cases hq : q < 65536
  · have h := (postings_append_length (shardPosts u c j 1 docs) q (shardPosts u c j (k + 1) new)).1
    rw [postings_shardPosts u c j q hj hq docs h1, postings_from u c j q k hj hq new h2] at h
    have := idsWith_length (fun s => hasBlot u c s.dat (q * c.numShards.toNat + j)) docs 1
    have := idsWith_length (fun s => hasBlot u c s.dat (q * c.numShards.toNat + j)) new (k + 1)
    exact Nat.le_trans h (by omega)
  · have : (twicePosts u c docs k new j).filter (fun p => decide (p.2 = q)) = [] := by
      rw [List.filter_eq_nil_iff]
      intro p hp
      rw [twicePosts, List.mem_append] at hp
      have hp : p.2 < 65536 := by
        rcases hp with hp | hp
        · exact shardPosts_bucket u c j _ _ p hp
        · exact shardPosts_bucket u c j _ _ p hp
      simp; omega
    simp [postings, this, compress]

/-! ## Opening, adding and reading -/

theorem roomy_of_fits {u : Uni} {c : Config} {docs : List Document} {k : Nat} {cwd : Bytes} {new : List Doc}
    (hf : Fits u c (docs ++ added cwd new)) (hk : k ≤ docs.length) : Roomy u c k (fun j => shardPosts u c j 1 docs) cwd new := by
  have hids := hf.ids
  simp only [List.length_append, added, List.length_map] at hids
  refine ⟨by omega, fun j hj m hm b => ?_⟩
  have hl : (added cwd (new.take m)).length ≤ new.length := by simp [added]; omega
  exact Nat.lt_of_le_of_lt (twice_length u c docs k (added cwd (new.take m)) hj b (by omega) (by omega)) (by omega)

/-- an index of `docs` whose file of records holds only the first `k` of them is opened for appending -/
theorem lost_open {u : Uni} {J : CfgCodec} {c : Config} (hU : Usable J c) {d d' : Dir} {docs : List Document} (h : DirRep u J c d docs)
    (hf : Fits u c docs) {t : Fnames.Table} {fs : List Fields} (k1 : d .fnm = some (Fnames.write t)) (k3 : MetaRep t fs docs) {k : Nat}
    (hk : k ≤ docs.length) {a : Dmd.Adder} (g1 : Dmd.newAdder (d' .dmd) c.docFlushRate = .ok a)
    (g2 : Dmd.Inv a (d' .dmd) (Dmd.zeroFields :: fs.take k)) (hrest : ∀ f, f ≠ .dmd → d' f = d f) :
    ∃ x, Indexer.open J d' = .ok x ∧ HeldRep u c x k (fun j => shardPosts u c j 1 docs) ∧
      Dmd.Inv x.front.dmds x.front.file (Dmd.zeroFields :: fs.take k) ∧ MetaRep x.front.fnames fs docs := by
  obtain ⟨bs, h1, h2, h3⟩ := makeBlotters_rep hU
  have hids := hf.ids
  have hsz := k3.small hf.paths
  have hlen := k3.len
  obtain ⟨t', m1, m2⟩ := Fnames.read_write t k3.wf (by omega) k3.names
  obtain ⟨xs, n1, n2, n3⟩ := openShards_rep (d := d') (fun j => postings (shardPosts u c j 1 docs)) c.numShards.toNat 0
    (fun j _ hj => by
      obtain ⟨bs, ps, e1, e2, e3⟩ := h.small hf.posts (j := j) (by omega)
      exact ⟨bs, ps, by rw [hrest _ (by simp)]; exact e1, by rw [hrest _ (by simp)]; exact e2, e3⟩)
  have hn := hU.shards
  have hcfg : d' .cfg = some (J.enc c ++ [10]) := by rw [hrest _ (by simp)]; exact h.cfg
  have hfnm : d' .fnm = some (Fnames.write t) := by rw [hrest _ (by simp)]; exact k1
  refine ⟨⟨c, ⟨t', a, d' .dmd⟩, bs, xs⟩, ?_, ⟨rfl, ?_, h2, h3, n2, ?_⟩, g2, k3.sim m2⟩
  · simp only [Indexer.open, Config.readFrom, Dir.read, hcfg, hU.codec, hU.check, Indexer.makeShards, if_neg (show ¬ c.numShards < 0 by omega),
      TokenConfig.fromConfig, hU.cons.tok, if_true, hfnm, g1, m1, n1, h1, bind, Except.bind, pure, Except.pure]
  · show (Dmd.last a).toNat = k
    rw [last_of_inv g2 (by simp [hlen]; omega)]
    simp [hlen]; omega
  · intro j s hs
    have := n3 j s hs
    rwa [Nat.zero_add] at this

/-- the closed index in directory `d`: the postings are those of `twicePosts`, the records those of `recs` -/
structure LostDir (u : Uni) (J : CfgCodec) (c : Config) (d : Dir) (docs : List Document) (k : Nat) (new : List Document) : Prop where
  cfg : d .cfg = some (J.enc c ++ [10])
  front : ∃ t fs gs, d .fnm = some (Fnames.write t) ∧ d .dmd = some ((Dmd.zeroFields :: (fs.take k ++ gs)).flatMap Dmd.encode) ∧
    fs.length = docs.length ∧ gs.length = new.length ∧ MetaRep t (fs ++ gs) (docs ++ new)
  sh : ∀ j, j < c.numShards.toNat → ∃ bs ps, d (.pos j) = some (render 0 bs) ∧ d (.iix j) = some (ps.flatMap ShardIndexer.iixEntry) ∧
    ClosedRep 65536 bs ps (postings (twicePosts u c docs k new j))

section
variable {u : Uni} {J : CfgCodec} {c : Config} {x : Indexer} {docs : List Document} {k : Nat} (hU : Usable J c)
  (h : HeldRep u c x k (fun j => shardPosts u c j 1 docs)) {fs : List Fields} (hd : Dmd.Inv x.front.dmds x.front.file (Dmd.zeroFields :: fs.take k))
  (hm : MetaRep x.front.fnames fs docs) (hk : k ≤ docs.length) (cwd : Bytes) (new : List Doc) (hf : Fits u c (docs ++ added cwd new))

include hU h hd hm hk hf

omit hd in
theorem lost_close {st : Nat} {t : Sched.St Blotter ShardIndexer (UInt32 × Bytes) Post}
    (ht : Sched.Steps (x.params u) st (x.start (reqs (k + 1) new)) t) (hc : t.client = .done) {front : Front} {gs : List Fields}
    (hg : gs.length = new.length) (hi : Dmd.Inv front.dmds front.file ((Dmd.zeroFields :: fs.take k) ++ gs))
    (hm' : MetaRep front.fnames (fs ++ gs) (docs ++ added cwd new)) {d : Dir} (hcfg : CfgOk J c d) :
    ∃ d', Indexer.close J x.config front x.shards.length (fun j => (t.servers j).shard) d = .ok d' ∧ LostDir u J c d' docs k (added cwd new) := by
  have hsh : ∀ j, j < c.numShards.toNat → ShardRep 65536 ((fun j => (t.servers j).shard) j)
      ((fun j => postings (twicePosts u c docs k (added cwd new) j)) j) :=
    fun j hj => (held_shards hU h cwd new (roomy_of_fits hf hk) ht hc hj).2
  unfold Indexer.close
  rw [h.cfg, h.nsh, Dmd.close_inv hi]
  obtain ⟨d', h1, h2, h3, h4, h5⟩ := closeShards_rep _ _ _ hsh
    (((c.writeTo J d).set .fnm (Fnames.write front.fnames)).set .dmd (((Dmd.zeroFields :: fs.take k) ++ gs).flatMap Dmd.encode))
  refine ⟨d', h1, ⟨?_, ⟨front.fnames, fs, gs, ?_, ?_, hm.len, by rw [hg]; simp [added], hm'⟩, h5⟩⟩
  · rw [h2]; have := writeTo_cfg hcfg; simpa [Dir.set] using this
  · rw [h3]; simp [Dir.set]
  · rw [h4]; simp [Dir.set]

omit hU h in
theorem lost_adds : ∃ front gs, x.front.adds cwd new = .ok (reqs (k + 1) new, front) ∧ gs.length = new.length ∧
    Dmd.Inv front.dmds front.file ((Dmd.zeroFields :: fs.take k) ++ gs) ∧ MetaRep front.fnames (fs ++ gs) (docs ++ added cwd new) := by
  have hids := hf.ids
  simp only [List.length_append, added, List.length_map] at hids
  have hl : (Dmd.zeroFields :: fs.take k).length = k + 1 := by simp [hm.len]; omega
  obtain ⟨front, gs, g1, g2, g3, g4⟩ := Front.adds_on cwd new hd hm (by rw [hl]; omega) hf.paths
  rw [hl] at g1
  exact ⟨front, gs, g1, g2, g3, g4⟩

theorem lost_session {d d' : Dir} (hcfg : CfgOk J c d) (hs : Indexer.Session u J cwd x new d d') : LostDir u J c d' docs k (added cwd new) := by
  obtain ⟨h1, h2, h3, h4⟩ := hs
  obtain ⟨front, gs, g1, g2, g3, g4⟩ := lost_adds hd hm hk cwd new hf
  rw [g1] at h1
  injection h1 with h1
  injection h1 with e1 e2
  subst e1 e2
  obtain ⟨d1, k1, k2⟩ := lost_close hU h hm hk cwd new hf h2 h3 g2 g3 g4 hcfg
  have := h4.symm.trans k1
  injection this with this
  rw [this]; exact k2

theorem lost_session_exists {d : Dir} (hcfg : CfgOk J c d) : ∃ d', Indexer.Session u J cwd x new d d' := by
  obtain ⟨front, gs, g1, g2, g3, g4⟩ := lost_adds hd hm hk cwd new hf
  obtain ⟨st, t, h1, h2⟩ := held_runs hU h cwd new (roomy_of_fits hf hk)
  obtain ⟨d1, k1, _⟩ := lost_close hU h hm hk cwd new hf h1 h2 g2 g3 g4 hcfg
  exact ⟨d1, .run g1 h1 h2 k1⟩

end

/-- the metadata of a document, from a table that has it -/
theorem docid2Doc_desc {t : Fnames.Table} (hwf : Fnames.WF t) {fs : List Fields} {docs : List Document} (hlen : fs.length = docs.length)
    (hdesc : ∀ (k : Nat) f s, fs[k]? = some f → docs[k]? = some s → Describes t f s) (hr : Rooted docs) (c : Config)
    (xs : List ShardIndex) {id : UInt32} (i1 : 1 ≤ id.toNat) (i2 : id.toNat ≤ docs.length) :
    Index.docid2Doc ⟨c, (Dmd.zeroFields :: fs).flatMap Dmd.encode, t, xs⟩ id = .ok (metaOf docs id) := by
  obtain ⟨s, hs⟩ : ∃ s, docs[id.toNat - 1]? = some s := ⟨_, List.getElem?_eq_getElem (by omega)⟩
  obtain ⟨f, hfs⟩ : ∃ f, fs[id.toNat - 1]? = some f := ⟨_, List.getElem?_eq_getElem (by rw [hlen]; omega)⟩
  have hd := hdesc _ f s hfs hs
  have hget : (Dmd.zeroFields :: fs)[id.toNat]? = some f := by
    rw [show id.toNat = (id.toNat - 1) + 1 by omega]; exact hfs
  obtain ⟨hlt, hge⟩ := List.getElem?_eq_some_iff.mp hget
  have hl := Dmd.lookup_encode (Dmd.zeroFields :: fs) id hlt
  rw [hge] at hl
  obtain ⟨cwd, p, hp⟩ := hr s (List.mem_of_getElem? hs)
  obtain ⟨r, hr1, hr2⟩ := Fnames.pathParts_abs cwd p
  have ha := hwf.abs hd.comps hd.fid
  rw [hp, hr2, join_split, ← hr1, ← hp] at ha
  simp only [Index.docid2Doc, hl, ha, bind, Except.bind, pure, Except.pure, metaOf, hs, Document.meta, hd.start, hd.stop]

/-- such an index is opened by queries, and every id in it is described -/
theorem LostDir.opens {u : Uni} {J : CfgCodec} {c : Config} (hU : Usable J c) (srt : Sorter) {d : Dir} {docs new : List Document} {k : Nat}
    (h : LostDir u J c d docs k new) (hf : Fits u c (docs ++ new)) (hr : Rooted (docs ++ new)) (hk : k ≤ docs.length) (hn : docs.length ≤ k + new.length) :
    ∃ x, Index.open J srt d = .ok x ∧
      Holds srt x c.numShards.toNat (fun j => postings (twicePosts u c docs k new j)) (metaOf (docs.take k ++ new)) ∧
      Dmd.numDocs x.dmd = k + new.length + 1 := by
  obtain ⟨t, fs, gs, k1, k2, l1, l2, k3⟩ := h.front
  have hids := hf.ids
  have hposts := hf.posts
  have hsz := k3.small hf.paths
  rw [List.length_append] at hids
  obtain ⟨t', m1, m2⟩ := Fnames.read_write t k3.wf (by omega) k3.names
  obtain ⟨xs, n1, n2, n3⟩ := indexShards_rep srt (d := d) (fun j => postings (twicePosts u c docs k new j)) c.numShards.toNat 0
    (fun j _ hj => by
      obtain ⟨bs, ps, h1, h2, h3⟩ := h.sh j (by omega)
      have h4 := h3.size
      have h5 := twicePosts_length u c docs k new j
      exact ⟨bs, ps, h1, h2, h3, by omega⟩)
  have hns := hU.shards
  have k4 := k3.sim m2
  have hdl : (docs.take k ++ new).length = k + new.length := by simp; omega
  have hfl : (fs.take k ++ gs).length = (docs.take k ++ new).length := by simp [l1, l2]
  have hdesc : ∀ (i : Nat) f s, (fs.take k ++ gs)[i]? = some f → (docs.take k ++ new)[i]? = some s → Describes t' f s := by
    intro i f s h1 h2
    have e1 : (fs.take k).length = k := by simp [l1]; omega
    have e2 : (docs.take k).length = k := by simp; omega
    by_cases hi : i < k
    · rw [List.getElem?_append_left (by omega), List.getElem?_take_of_lt hi] at h1 h2
      refine k4.desc i f s ?_ ?_
      · rw [List.getElem?_append_left (by omega)]; exact h1
      · rw [List.getElem?_append_left (by omega)]; exact h2
    · rw [List.getElem?_append_right (by omega)] at h1 h2
      rw [e1] at h1
      rw [e2] at h2
      refine k4.desc (docs.length + (i - k)) f s ?_ ?_
      · rw [List.getElem?_append_right (by omega), show docs.length + (i - k) - fs.length = i - k by omega]; exact h1
      · rw [List.getElem?_append_right (by omega), show docs.length + (i - k) - docs.length = i - k by omega]; exact h2
  have hrt : Rooted (docs.take k ++ new) := by
    intro s hs
    refine hr s ?_
    rw [List.mem_append] at hs ⊢
    exact hs.imp List.mem_of_mem_take id
  refine ⟨⟨c, (Dmd.zeroFields :: (fs.take k ++ gs)).flatMap Dmd.encode, t', xs⟩, ?_, ⟨n2, ?_, ?_⟩, ?_⟩
  · simp only [Index.open, Config.readFrom, Dir.read, h.cfg, hU.codec, hU.check, if_neg (show ¬ c.numShards < 0 by omega),
      k1, k2, m1, n1, bind, Except.bind, pure, Except.pure]
  · intro j s hs
    have := n3 j s hs
    rwa [Nat.zero_add] at this
  · intro j q hj hq id hid
    rw [twice_mem u c docs k new hj hq (by omega) (by omega)] at hid
    refine docid2Doc_desc k4.wf hfl hdesc hrt c xs ?_ ?_
    · rcases hid with ⟨n, s, _, _, e⟩ | ⟨n, s, _, _, e⟩ <;> omega
    · rw [hdl]
      rcases hid with ⟨n, s, e1, _, e⟩ | ⟨n, s, e1, _, e⟩
      · have := (List.getElem?_eq_some_iff.mp e1).1; omega
      · have := (List.getElem?_eq_some_iff.mp e1).1; omega
  · show Dmd.numDocs ((Dmd.zeroFields :: (fs.take k ++ gs)).flatMap Dmd.encode) = _
    rw [Dmd.numDocs, Dmd.encodeAll_length, Dmd.rcdSize, List.length_cons, hfl, hdl]
    omega

end Dupi
