import Verif.Proof.LiveMeta
/-! # Queries on an index that grows -/

namespace Dupi
open Spec

/-! ### The loop of Get -/

namespace Query

section
variable {x : Index} {m : Nat → Dir} {j o : Nat} {D : UInt32 → Bytes × UInt32 × UInt32}

/-- no block of the bucket is touched -/
theorem getLoopL_quiet (grow : Nat → Nat) (rem : List UInt32) : ∀ (fuel t : Nat) {off : Nat} {bs : List Blk} {ps : Posts} (b : Blot), Left o off bs ps rem →
    (∀ t, Covers o ((m t).contents (.pos j)) off bs) → (∀ id ∈ rem, ∀ t, x.docid2DocL (m t) id = .ok (D id)) → rem.length < fuel →
    ∃ b', getLoopL grow x m j false fuel t ps b = .ok b' ∧ b'.blot = b.blot ∧ b'.vis = b.vis ++ rem.map fun id => Doc.ofMeta (D id) := by
  induction rem with
  | nil =>
    intro fuel t off bs ps b h _ _ hf
    obtain ⟨f, rfl⟩ : ∃ f, fuel = f + 1 := ⟨fuel - 1, by simp at hf; omega⟩
    exact ⟨b, by simp [getLoopL, h.eof, fail], rfl, by simp⟩
  | cons id rem ih =>
    intro fuel t off bs ps b h hc hD hf
    obtain ⟨f, rfl⟩ : ∃ f, fuel = f + 1 := ⟨fuel - 1, by simp at hf; omega⟩
    obtain ⟨p, off', bs', h1, h2, h3⟩ := h.step (fs := fun k => (m (t + k)).contents (.pos j)) fun k => hc _
    obtain ⟨b1, g1, g2, g3⟩ := Blot.next_unlim grow b (D id)
    obtain ⟨b', k1, k2, k3⟩ := ih f (t + 12) (b1.setLast (D id)) h2 (fun t => h3 _ (hc t)) (fun i hi => hD i (by simp [hi])) (by simp at hf; omega)
    refine ⟨b', ?_, by rw [k2, g3], by rw [k3, g2]; simp⟩
    simp only [getLoopL, Bool.false_and, h1, g1, bind, Except.bind, hD id (by simp), k1]
    rfl

theorem getLoopL_quiet_lim (grow : Nat → Nat) (bl : UInt32) (rem : List UInt32) : ∀ (fuel t : Nat) {off : Nat} {bs : List Blk} {ps : Posts} (v s : List Doc), Left o off bs ps rem →
    (∀ t, Covers o ((m t).contents (.pos j)) off bs) → (∀ id ∈ rem, ∀ t, x.docid2DocL (m t) id = .ok (D id)) → rem.length < fuel →
    getLoopL grow x m j true fuel t ps ⟨bl, some ⟨v, s⟩⟩ =
      .ok ⟨bl, some ⟨v ++ List.zipWith (fun d id => d.fill (D id)) s rem, s.drop rem.length⟩⟩ := by
  induction rem with
  | nil =>
    intro fuel t off bs ps v s h _ _ hf
    obtain ⟨f, rfl⟩ : ∃ f, fuel = f + 1 := ⟨fuel - 1, by simp at hf; omega⟩
    simp [getLoopL, h.eof, fail]
  | cons id rem ih =>
    intro fuel t off bs ps v s h hc hD hf
    obtain ⟨f, rfl⟩ : ∃ f, fuel = f + 1 := ⟨fuel - 1, by simp at hf; omega⟩
    cases s with
    | nil => simp [getLoopL, Blot.len, Blot.cap]
    | cons d s =>
      obtain ⟨p, off', bs', h1, h2, h3⟩ := h.step (fs := fun k => (m (t + k)).contents (.pos j)) fun k => hc _
      obtain ⟨b1, g1, g2⟩ := Blot.next_lim grow bl v d s (D id)
      have := ih f (t + 12) (v ++ [d.fill (D id)]) s h2 (fun t => h3 _ (hc t)) (fun i hi => hD i (by simp [hi])) (by simp at hf; omega)
      simp only [getLoopL, Blot.len, Blot.cap, h1, g1, bind, Except.bind, hD id (by simp), g2, this]
      simp

/-- the file of the bucket grows -/
theorem getLoopL_chase (grow : Nat → Nat) {bs bs' : List Blk} (hwf : ∀ b ∈ bs', b.WF) (hsz : sizes bs' < 2 ^ 63)
    (hg : ∀ t, Growing bs bs' ((m t).contents (.pos j))) {K : UInt32 → Prop} : ∀ (fuel t : Nat) {ps : Posts} {rem : List UInt32} {need : Nat} (b : Blot),
    Chase o bs bs' ps rem need →
    (∀ id ∈ rem, ∀ t, (x.docid2DocL (m t) id = .ok (D id) ∧ K id) ∨ Errs (x.docid2DocL (m t) id) ∨ (x.docid2DocL (m t) id = panic' ∧ ¬ K id)) → rem.length < fuel →
    (∃ b' k, getLoopL grow x m j false fuel t ps b = .ok b' ∧ need ≤ k ∧ k ≤ rem.length ∧ b'.blot = b.blot ∧
      b'.vis = b.vis ++ (rem.take k).map (fun id => Doc.ofMeta (D id)) ∧ ∀ id ∈ rem.take k, K id) ∨
    Errs (getLoopL grow x m j false fuel t ps b) ∨ (getLoopL grow x m j false fuel t ps b = panic' ∧ ∃ id ∈ rem, ¬ K id) := by
  intro fuel
  induction fuel with
  | zero => intro t ps rem need b _ _ h; omega
  | succ f ih =>
    intro t ps rem need b h hD hf
    rcases h.next hwf hsz (fs := fun k => (m (t + k)).contents (.pos j)) (fun k => hg _) with ⟨h1, h2⟩ | ⟨e, h1, h2⟩ | ⟨v, rem', p', h1, h2, h3⟩
    · exact .inl ⟨b, 0, by simp [getLoopL, h1, fail], by omega, by omega, rfl, by simp, by simp⟩
    · refine .inr (.inl ⟨e, ?_⟩)
      simp only [getLoopL, Bool.false_and, h1, fail]
      cases e <;> first | rfl | exact absurd rfl h2
    · subst h1
      rcases hD v (by simp) (t + 11) with ⟨g1, g2⟩ | ⟨e, g1⟩ | ⟨g1, g2⟩
      · obtain ⟨b1, n1, n2, n3⟩ := Blot.next_unlim grow b (D v)
        have hrun : getLoopL grow x m j false (f + 1) t ps b = getLoopL grow x m j false f (t + 12) p' (b1.setLast (D v)) := by
          simp only [getLoopL, Bool.false_and, h2, n1, bind, Except.bind, g1]; rfl
        rw [hrun]
        rcases ih (t + 12) (b1.setLast (D v)) h3 (fun i hi => hD i (by simp [hi])) (by simp at hf; omega) with
          ⟨b', k, k1, k2, k3, k4, k5, k6⟩ | he | ⟨hp, i, hi, hi'⟩
        · refine .inl ⟨b', k + 1, k1, by omega, by simp; omega, by rw [k4, n3], by rw [k5, n2]; simp, ?_⟩
          intro id hid
          rw [List.take_succ_cons] at hid
          rcases List.mem_cons.mp hid with rfl | hid
          · exact g2
          · exact k6 id hid
        · exact .inr (.inl he)
        · exact .inr (.inr ⟨hp, i, by simp [hi], hi'⟩)
      · obtain ⟨b1, n1, n2, n3⟩ := Blot.next_unlim grow b (D v)
        refine .inr (.inl ⟨.wrap "internal error docid2Doc" e, ?_⟩)
        simp only [getLoopL, Bool.false_and, h2, n1, bind, Except.bind, g1, fail]; rfl
      · obtain ⟨b1, n1, n2, n3⟩ := Blot.next_unlim grow b (D v)
        refine .inr (.inr ⟨?_, v, by simp, g2⟩)
        simp only [getLoopL, Bool.false_and, h2, n1, bind, Except.bind, g1, panic']; rfl

theorem getLoopL_chase_lim (grow : Nat → Nat) {bs bs' : List Blk} (hwf : ∀ b ∈ bs', b.WF) (hsz : sizes bs' < 2 ^ 63)
    (hg : ∀ t, Growing bs bs' ((m t).contents (.pos j))) {K : UInt32 → Prop} (bl : UInt32) : ∀ (fuel t : Nat) {ps : Posts} {rem : List UInt32} {need : Nat} (v s : List Doc),
    Chase o bs bs' ps rem need →
    (∀ id ∈ rem, ∀ t, (x.docid2DocL (m t) id = .ok (D id) ∧ K id) ∨ Errs (x.docid2DocL (m t) id) ∨ (x.docid2DocL (m t) id = panic' ∧ ¬ K id)) → rem.length < fuel →
    (∃ k, getLoopL grow x m j true fuel t ps ⟨bl, some ⟨v, s⟩⟩ = .ok ⟨bl, some ⟨v ++ List.zipWith (fun d id => d.fill (D id)) s (rem.take k), s.drop k⟩⟩ ∧
      (need ≤ k ∨ k = s.length) ∧ k ≤ rem.length ∧ k ≤ s.length ∧ ∀ id ∈ rem.take k, K id) ∨
    Errs (getLoopL grow x m j true fuel t ps ⟨bl, some ⟨v, s⟩⟩) ∨ (getLoopL grow x m j true fuel t ps ⟨bl, some ⟨v, s⟩⟩ = panic' ∧ ∃ id ∈ rem, ¬ K id) := by
  intro fuel
  induction fuel with
  | zero => intro t ps rem need v s _ _ h; omega
  | succ f ih =>
    intro t ps rem need w s h hD hf
    cases s with
    | nil => exact .inl ⟨0, by simp [getLoopL, Blot.len, Blot.cap], .inr rfl, by omega, by simp, by simp⟩
    | cons d s =>
    have hcap : ((⟨bl, some ⟨w, d :: s⟩⟩ : Blot).len == (⟨bl, some ⟨w, d :: s⟩⟩ : Blot).cap) = false := by simp [Blot.len, Blot.cap]
    rcases h.next hwf hsz (fs := fun k => (m (t + k)).contents (.pos j)) (fun k => hg _) with ⟨h1, h2⟩ | ⟨e, h1, h2⟩ | ⟨v, rem', p', h1, h2, h3⟩
    · refine .inl ⟨0, ?_, .inl (by omega), by omega, by simp, by simp⟩
      simp only [getLoopL, hcap, Bool.and_false, h1, fail]; simp
    · refine .inr (.inl ⟨e, ?_⟩)
      simp only [getLoopL, hcap, Bool.and_false, h1, fail]
      cases e <;> first | rfl | exact absurd rfl h2
    · subst h1
      obtain ⟨b1, n1, n2⟩ := Blot.next_lim grow bl w d s (D v)
      rcases hD v (by simp) (t + 11) with ⟨g1, g2⟩ | ⟨e, g1⟩ | ⟨g1, g2⟩
      · have hrun : getLoopL grow x m j true (f + 1) t ps ⟨bl, some ⟨w, d :: s⟩⟩ = getLoopL grow x m j true f (t + 12) p' ⟨bl, some ⟨w ++ [d.fill (D v)], s⟩⟩ := by
          rw [← n2]
          simp only [getLoopL, hcap, Bool.and_false, h2, n1, bind, Except.bind, g1]; rfl
        rw [hrun]
        rcases ih (t + 12) (w ++ [d.fill (D v)]) s h3 (fun i hi => hD i (by simp [hi])) (by simp at hf; omega) with
          ⟨k, k1, k2, k3, k4, k5⟩ | he | ⟨hp, i, hi, hi'⟩
        · refine .inl ⟨k + 1, by rw [k1]; simp, by simp; omega, by simp; omega, by simp; omega, ?_⟩
          intro id hid
          rw [List.take_succ_cons] at hid
          rcases List.mem_cons.mp hid with rfl | hid
          · exact g2
          · exact k5 id hid
        · exact .inr (.inl he)
        · exact .inr (.inr ⟨hp, i, by simp [hi], hi'⟩)
      · refine .inr (.inl ⟨.wrap "internal error docid2Doc" e, ?_⟩)
        simp only [getLoopL, hcap, Bool.and_false, h2, n1, bind, Except.bind, g1, fail]; rfl
      · refine .inr (.inr ⟨?_, v, by simp, g2⟩)
        simp only [getLoopL, hcap, Bool.and_false, h2, n1, bind, Except.bind, g1, panic']; rfl

/-- the chain can be read, a document on it is at a place that is not known -/
theorem getLoopL_panic (grow : Nat → Nat) (rem : List UInt32) : ∀ (fuel t : Nat) {off : Nat} {bs : List Blk} {ps : Posts} (b : Blot), Left o off bs ps rem →
    (∀ t, Covers o ((m t).contents (.pos j)) off bs) → (∀ id ∈ rem, ∀ t, x.docid2DocL (m t) id = .ok (D id) ∨ x.docid2DocL (m t) id = panic') →
    (∃ id ∈ rem, ∀ t, x.docid2DocL (m t) id = panic') → rem.length < fuel → getLoopL grow x m j false fuel t ps b = panic' := by
  induction rem with
  | nil => intro fuel t off bs ps b h _ _ hp _; obtain ⟨_, h, _⟩ := hp; simp at h
  | cons id rem ih =>
    intro fuel t off bs ps b h hc hD hp hf
    obtain ⟨f, rfl⟩ : ∃ f, fuel = f + 1 := ⟨fuel - 1, by simp at hf; omega⟩
    obtain ⟨p, off', bs', h1, h2, h3⟩ := h.step (fs := fun k => (m (t + k)).contents (.pos j)) fun k => hc _
    obtain ⟨b1, g1, g2, g3⟩ := Blot.next_unlim grow b (D id)
    rcases hD id (by simp) (t + 11) with e | e
    · simp only [getLoopL, Bool.false_and, h1, g1, bind, Except.bind, e]
      refine ih f (t + 12) (b1.setLast (D id)) h2 (fun t => h3 _ (hc t)) (fun i hi => hD i (by simp [hi])) ?_ (by simp at hf; omega)
      obtain ⟨i, hi, hi'⟩ := hp
      rcases List.mem_cons.mp hi with rfl | hi
      · rw [hi'] at e; simp [panic'] at e
      · exact ⟨i, hi, hi'⟩
    · simp only [getLoopL, Bool.false_and, h1, g1, bind, Except.bind, e, panic']; rfl

end

end Query

/-! ### What can be seen of a session -/

theorem Cut.of_prefix {a b : List Op} (h : a <+: b) : Cut b a := by
  obtain ⟨t, rfl⟩ := h
  exact Cut.prefix a t

theorem opsOn_prefix {f : File} {a b : List Op} (h : a <+: b) : opsOn f a <+: opsOn f b := by
  obtain ⟨t, rfl⟩ := h
  rw [opsOn_append]
  exact List.prefix_append _ _

section
variable {u : Uni} {J : CfgCodec} {c : Config} {old : List Document} {d : Dir} {x : Indexer} {cwd : Bytes} {new : List Doc} {tr : Trace} {d' : Dir}
variable (hU : Usable J c) (A : Appending u J c old d x cwd new tr d')
include hU A

/-- a file at a moment of a session -/
theorem Appending.seen {cd : Dir} (h : Trace.Seen c.numShards.toNat tr d cd) :
    ((∃ s, s <+: tr.adds ∧ cd .dmd = onFiles (d .dmd) s) ∨ (∃ s, s <+: opsOn .dmd tr.closing ∧ cd .dmd = onFiles (onFiles (d .dmd) tr.adds) s)) ∧
      ∀ j, j < c.numShards.toNat → (∃ s, s <+: tr.serve j ∧ cd (.pos j) = onFiles (d (.pos j)) s) ∨
        ∃ s, s <+: opsOn (.pos j) (tr.shard j) ∧ cd (.pos j) = onFiles (onFiles (d (.pos j)) (tr.serve j)) s := by
  have R := A.run.rep
  have hns := (A.rep hU).nsh
  have hset : tr.setup = [] := R.setup
  cases h with
  | setup h =>
    rw [hset] at h
    rw [List.prefix_nil.mp h]
    exact ⟨.inl ⟨[], List.nil_prefix, rfl⟩, fun j _ => .inl ⟨[], List.nil_prefix, rfl⟩⟩
  | @adding a s ops ha hs hi =>
    rw [hset, List.nil_append]
    obtain ⟨o1, o2, o3⟩ := workers_opsOn hi ((Cut.of_prefix ha).on R.adds) fun j hj => (Cut.of_prefix (hs j hj)).on (R.serve j (by omega))
    exact ⟨.inl ⟨a, ha, by rw [run_file, o1]⟩, fun j hj => .inl ⟨s j, hs j hj, by rw [run_file, o2 j hj]⟩⟩
  | @closing ops cs hi hc =>
    rw [hset, List.nil_append]
    obtain ⟨o1, o2, o3⟩ := workers_opsOn hi R.adds fun j hj => R.serve j (by omega)
    refine ⟨.inr ⟨_, opsOn_prefix hc, by rw [run_append, run_file, run_file, o1]⟩, fun j hj => .inl ⟨tr.serve j, List.prefix_refl _, ?_⟩⟩
    exact ((A.closing_found hU hi (Cut.of_prefix hc)).2 j hj).2
  | @shards s ops ops' hi hs hi' =>
    rw [hset, List.nil_append]
    obtain ⟨o1, o2, o3⟩ := workers_opsOn hi R.adds fun j hj => R.serve j (by omega)
    have hsh : ∀ j, j < c.numShards.toNat → OnShard j (s j) := by
      intro j hj
      obtain ⟨ws, ps, w1, _⟩ := R.shard j _ (List.getElem?_eq_getElem (by omega))
      exact (Cut.of_prefix (hs j hj)).onShard (by rw [w1]; exact closeOps_onShard _ _ _)
    obtain ⟨p1, p2⟩ := shards_opsOn hi' hsh
    refine ⟨.inr ⟨_, List.prefix_refl _, ?_⟩, fun j hj => .inr ⟨_, opsOn_prefix (hs j hj), ?_⟩⟩
    · rw [run_append, (p2 .dmd (fun j _ => ⟨nofun, nofun⟩)).run, run_append, run_file, run_file, o1]
    · rw [run_append, run_file, (p1 j hj).1, ((A.closing_found hU hi (Cut.refl _)).2 j hj).2]

/-- the same with torn writes -/
theorem Appending.crashed {cd : Dir} (h : Trace.Crashed c.numShards.toNat tr d cd) : Appending.Found d d' cd J c ∧
      ∀ j, j < c.numShards.toNat → (∃ s, Cut (tr.serve j) s ∧ cd (.pos j) = onFiles (d (.pos j)) s) ∨
        ∃ s, Cut (opsOn (.pos j) (tr.shard j)) s ∧ cd (.pos j) = onFiles (onFiles (d (.pos j)) (tr.serve j)) s := by
  have R := A.run.rep
  have hns := (A.rep hU).nsh
  have hset : tr.setup = [] := R.setup
  cases h with
  | setup h =>
    rw [hset] at h
    cases h
    refine ⟨(A.adding_found hU (a := []) .stop (s := fun _ => []) (fun _ _ => .stop) (ops := []) (.nil (by simp [Trace.workers]))).1, fun j _ => .inl ⟨[], .stop, rfl⟩⟩
  | @adding a s ops ha hs hi =>
    rw [hset, List.nil_append]
    obtain ⟨F, _, g⟩ := A.adding_found hU ha hs hi
    exact ⟨F, fun j hj => .inl ⟨s j, hs j hj, (g j hj).2⟩⟩
  | @closing ops cs hi hc =>
    rw [hset, List.nil_append]
    obtain ⟨F, g⟩ := A.closing_found hU hi hc
    exact ⟨F, fun j hj => .inl ⟨tr.serve j, Cut.refl _, (g j hj).2⟩⟩
  | @shards s ops ops' hi hs hi' =>
    rw [hset, List.nil_append]
    obtain ⟨F, _⟩ := A.shards_found hU hi hs hi'
    have hsh : ∀ j, j < c.numShards.toNat → OnShard j (s j) := by
      intro j hj
      obtain ⟨ws, ps, w1, _⟩ := R.shard j _ (List.getElem?_eq_getElem (by omega))
      exact (hs j hj).onShard (by rw [w1]; exact closeOps_onShard _ _ _)
    obtain ⟨p1, p2⟩ := shards_opsOn hi' hsh
    refine ⟨F, fun j hj => .inr ⟨_, (hs j hj).opsOn, ?_⟩⟩
    rw [run_append, run_file, (p1 j hj).1, ((A.closing_found hU hi (Cut.refl _)).2 j hj).2]

/-- What a reader of the old index has in memory for bucket `o` of shard `j` -/
theorem Appending.reader {srt : Sorter} {y : Index} (hy : Index.open J srt d = .ok y) {j o : Nat} (hj : j < c.numShards.toNat) (ho : o < 65536) :
    ∃ bs bs' sh hd ct, y.config = c ∧ y.shards[j]? = some sh ∧ sh.heads[o]? = some hd ∧ sh.counts[o]? = some ct ∧
      (∀ b ∈ bs', b.WF) ∧ sizes bs' < 2 ^ 63 ∧ d (.pos j) = some (render 0 bs) ∧ d' (.pos j) = some (render 0 bs') ∧ bs <+: bs' ∧
      Left o 0 bs (Posts.new hd) (postings (shardPosts u c j 1 old) o) ∧
      (postings (shardPosts u c j 1 old) o ≠ [] → Left o 0 bs' (Posts.new hd) (postings (shardPosts u c j 1 (old ++ added cwd new)) o)) ∧
      Chase o bs bs' (Posts.new hd) (postings (shardPosts u c j 1 (old ++ added cwd new)) o) (postings (shardPosts u c j 1 old) o).length ∧
      (∀ cd, Trace.Seen c.numShards.toNat tr d cd → ∃ f, cd (.pos j) = some f ∧ Growing bs bs' f) ∧
      ∀ ops, Miss o bs (.pos j) ops → ∃ f, onFiles (d (.pos j)) ops = some f ∧ Covers o f 0 bs := by
  obtain ⟨bs, bs', ps, h1, h2, h3, h4, h5, h6, h7, h8, h9, h10⟩ := A.grows hU hj
  obtain ⟨i1, i2, ⟨f, i3, i4⟩, i5⟩ := openIndex_inv hy
  rw [Appending.readFrom hU A.dir.cfg] at i1
  injection i1 with i1
  rw [← i1] at i5
  obtain ⟨j1, j2⟩ := indexShards_inv _ i5
  obtain ⟨s, hs⟩ : ∃ s, y.shards[j]? = some s := ⟨_, List.getElem?_eq_getElem (by rw [j1]; exact hj)⟩
  obtain ⟨iix, post, k1, k2, k3⟩ := j2 _ s hs
  rw [Nat.zero_add, h2] at k1
  injection k1 with k1
  rw [← k1] at k3
  obtain ⟨ex, he⟩ := h6
  have hsz : sizes bs ≤ sizes bs' := by rw [← he, sizes_append]; omega
  obtain ⟨ct, q1, q2, _, q3⟩ := init_head h3 (by rw [render_length]; omega) k3 ho
  have hnew : postings (shardPosts u c j 1 (old ++ added cwd new)) o = runSum 0 (flushed o bs') := by
    rw [h8 o ho, runSum_deltasFrom]
  refine ⟨bs, bs', s, _, ct, i1.symm, hs, q1, q2, h4, h5, h1, h7, ⟨ex, he⟩, ⟨h3.wf, by omega, rfl, by simp [Posts.new], by simpa [Posts.new] using q3⟩, fun hne => ?_,
    ⟨[], bs, ex, by simp [he], by simp, by simp [Posts.new, sizes], by simp [Posts.new], by simpa [Posts.new, he] using hnew, ?_⟩, fun cd hcd => ?_, fun ops hops => ?_⟩
  · refine ⟨h4, by omega, ?_, by simp [Posts.new], by simpa [Posts.new] using hnew⟩
    simp only [Posts.new]
    rw [← he, nextOff_append_left]
    intro hn
    rw [nextOff_owner_none _ _ _ hn] at q3
    exact hne (by rw [q3]; rfl)
  · rw [q3, runSum_length]; simp [Posts.new]
  · rcases (A.seen hU hcd).2 j hj with ⟨s, s1, s2⟩ | ⟨s, s1, s2⟩
    · rw [s2]; exact h9 s s1
    · rw [s2]; exact h10 s s1
  · rw [h1]
    exact Miss.covers ops hops (by have := Covers.render o bs [] []; simpa using this)

end

/-- `Get` of a blot, as far as the loop -/
theorem getL_bucket {y : Index} {n : Nat} (h0 : 0 < n) (hn : n < 2 ^ 32) (b : Blot)
    {s : ShardIndex} (hs : y.shards[b.blot.toNat % n]? = some s) {hd : Int} {ct : UInt32} (hh : s.heads[b.blot.toNat / n % 65536]? = some hd)
    (hc : s.counts[b.blot.toNat / n % 65536]? = some ct) (grow : Nat → Nat) (m : Nat → Dir) (fuel : Nat)
    {q : QState} (hq : q.n = UInt32.ofNat n) : Query.getL grow y m fuel q b =
      Query.getLoopL grow y m (b.blot.toNat % n) b.docs.isSome fuel 0 (Posts.new hd) b := by
  have e : q.n.toNat = n := by rw [hq]; simp only [UInt32.toNat_ofNat']; omega
  have hz : q.n ≠ 0 := by intro hc; rw [hc] at e; simp at e; omega
  have e1 : (b.blot % q.n).toNat = b.blot.toNat % n := by rw [UInt32.toNat_mod, e]
  have e2 : (b.blot / q.n).toUInt16.toNat = b.blot.toNat / n % 65536 := by rw [UInt32.toNat_toUInt16, UInt32.toNat_div, e]
  simp only [Query.getL, if_neg hz, e1, hs, e2, ShardIndex.readStateFor, ShardIndex.readStateForBlotAt, hh, hc, bind, Except.bind]

end Dupi
