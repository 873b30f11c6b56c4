import Verif.Proof.Faults
/-! # The goroutines of a session in which system calls failed -/

namespace Dupi
open Spec

theorem serveAll_addAllF (posts : List Post) : ∀ s : FShard,
    Sched.serveAll (fun s p => let (d, b) := serveBucket p; s.add d b) s posts = s.addAll (posts.map serveBucket) := by
  induction posts with
  | nil => intro s; rfl
  | cons p ps ih =>
    intro s
    simp only [Sched.serveAll, List.map_cons]
    cases hp : serveBucket p with
    | mk d b =>
      simp only [FShard.addAll, bind, Except.bind]
      cases s.add d b with
      | error e => rfl
      | ok s' => exact ih s'

section
variable {u : Uni} {J : CfgCodec} {c : Config} {x : Indexer} {docs : List Document} (hU : Usable J c) (h : IndexerRep u c x docs)
  (cwd : Bytes) (new : List Doc) (hf : Fits u c (docs ++ added cwd new)) (ψ : Nat → Fates)

/-- the goroutine system of a session adding `new`, the calls of shard `j` having the fates `ψ j` -/
def sessionEnvF : Sched.Env Blotter FShard (UInt32 × Bytes) Post where
  P := x.paramsF u
  b0 := (sessionEnv hU h cwd new hf).b0
  s0 := fun j => ⟨x.shards.getD j ⟨[], []⟩, ψ j, false⟩
  last := Dmd.last x.front.dmds
  docs := reqs (docs.length + 1) new
  out := (sessionEnv hU h cwd new hf).out
  Iw := (sessionEnv hU h cwd new hf).Iw
  iw0 := (sessionEnv hU h cwd new hf).iw0
  hcompute := (sessionEnv hU h cwd new hf).hcompute
  ids := (sessionEnv hU h cwd new hf).ids

theorem sessionEnvF_base : (sessionEnvF hU h cwd new hf ψ).base = docs.length := sessionEnv_base hU h cwd new hf

theorem sessionEnvF_posts (m j : Nat) (hj : j < c.numShards.toNat) (hm : m ≤ new.length) :
    ((sessionEnvF hU h cwd new hf ψ).batches (docs.length + m) j).flatten.map serveBucket =
      shardPosts u c j (docs.length + 1) (added cwd (new.take m)) :=
  sessionEnv_posts hU h cwd new hf m j hj hm

include h hf in
theorem sessionF_shard (j : Nat) (hj : j < c.numShards.toNat) :
    ∃ y, (⟨x.shards.getD j ⟨[], []⟩, ψ j, false⟩ : FShard).addAll (shardPosts u c j (docs.length + 1) (added cwd new)) = .ok y ∧
      FShardRep (fun _ => false) 65536 y.x (postings (shardPosts u c j 1 (docs ++ added cwd new))) := by
  have hjx : j < x.shards.length := by rw [h.nsh]; exact hj
  have hs := (h.sh j _ (List.getElem?_eq_getElem hjx)).faulty
  have hids := hf.ids
  rw [List.getD_eq_getElem?_getD, List.getElem?_eq_getElem hjx, Option.getD_some]
  have e : shardPosts u c j 1 (docs ++ added cwd new) =
      shardPosts u c j 1 docs ++ shardPosts u c j (docs.length + 1) (added cwd new) := by
    rw [shardPosts_append, Nat.add_comm]
  rw [e]
  apply FShardRep.addAll (s := ⟨x.shards[j], ψ j, false⟩) hs
  · exact shardPosts_bucket u c j _ _
  · intro b
    rw [← e]
    apply postings_shardPosts_length u c j hj
    simp only [List.length_append, added, List.length_map] at hids ⊢
    omega

theorem sessionF_serve (j : Nat) (hj : j < c.numShards.toNat) :
    Sched.serveAll (x.paramsF u).serve ⟨x.shards.getD j ⟨[], []⟩, ψ j, false⟩
      ((sessionEnvF hU h cwd new hf ψ).batches (docs.length + new.length) j).flatten =
    (⟨x.shards.getD j ⟨[], []⟩, ψ j, false⟩ : FShard).addAll (shardPosts u c j (docs.length + 1) (added cwd new)) := by
  rw [show (x.paramsF u).serve = fun s p => let (d, b) := serveBucket p; s.add d b from rfl, serveAll_addAllF,
    sessionEnvF_posts hU h cwd new hf ψ new.length j hj (Nat.le_refl _), List.take_length]

theorem sessionEnvF_serves : (sessionEnvF hU h cwd new hf ψ).Serves := by
  intro j hj
  have hj : j < c.numShards.toNat := by rw [← h.nsh]; exact hj
  obtain ⟨y, hy, _⟩ := sessionF_shard h cwd new hf ψ j hj
  rw [sessionEnvF_base]
  refine ⟨y, ?_⟩
  rw [← hy, ← sessionF_serve hU h cwd new hf ψ j hj, ← reqs_length new (docs.length + 1)]
  rfl

theorem sessionEnvF_inv {k : Nat} {t : Sched.St Blotter FShard (UInt32 × Bytes) Post}
    (ht : Sched.Steps (x.paramsF u) k (x.startF ψ (reqs (docs.length + 1) new)) t) : Sched.Inv (sessionEnvF hU h cwd new hf ψ) t :=
  Sched.Steps.inv (Γ := sessionEnvF hU h cwd new hf ψ) ht Sched.Inv.init

include hU h hf in
/-- the shards at the end of a session -/
theorem sessionF_shards {k : Nat} {t : Sched.St Blotter FShard (UInt32 × Bytes) Post}
    (ht : Sched.Steps (x.paramsF u) k (x.startF ψ (reqs (docs.length + 1) new)) t) (hc : t.client = .done) {j : Nat} (hj : j < c.numShards.toNat) :
    (⟨x.shards.getD j ⟨[], []⟩, ψ j, false⟩ : FShard).addAll (shardPosts u c j (docs.length + 1) (added cwd new)) = .ok (t.servers j).shard ∧
    FShardRep (fun _ => false) 65536 (t.servers j).shard.x (postings (shardPosts u c j 1 (docs ++ added cwd new))) := by
  have hi := sessionEnvF_inv hU h cwd new hf ψ ht
  have hd := hi.done hc
  have hjn : j < (sessionEnvF hU h cwd new hf ψ).P.n := by show j < x.shards.length; rw [h.nsh]; exact hj
  have := (hi.allDone hd (by rw [hc]; intro ds; exact nofun) hjn).2
  obtain ⟨y, hy, hr⟩ := sessionF_shard h cwd new hf ψ j hj
  rw [sessionEnvF_base, show (sessionEnvF hU h cwd new hf ψ).docs.length = new.length from reqs_length _ _] at this
  have h2 := this.symm.trans ((sessionF_serve hU h cwd new hf ψ j hj).trans hy)
  injection h2 with h2
  rw [h2]
  exact ⟨hy, hr⟩

include hU h hf in
/-- there is a complete execution -/
theorem sessionF_runs : ∃ k t, Sched.Steps (x.paramsF u) k (x.startF ψ (reqs (docs.length + 1) new)) t ∧ t.client = .done := by
  have hnw : 0 < (sessionEnvF hU h cwd new hf ψ).P.nw := by
    show 0 < x.blotters.length
    rw [h.nw]; have := hU.shatters; omega
  have key : ∀ m k s, Sched.Steps (x.paramsF u) k (x.startF ψ (reqs (docs.length + 1) new)) s → Sched.measure (x.paramsF u) s ≤ m →
      ∃ k t, Sched.Steps (x.paramsF u) k (x.startF ψ (reqs (docs.length + 1) new)) t ∧ t.client = .done := by
    intro m
    induction m with
    | zero =>
      intro k s hs hm
      have hi := sessionEnvF_inv hU h cwd new hf ψ hs
      rcases hi.progress (sessionEnvF_serves hU h cwd new hf ψ) hnw with hfin | ⟨t, ht⟩
      · exact ⟨k, s, hs, hfin.1⟩
      · have := Sched.Step.decreases ht
        change _ < Sched.measure (x.paramsF u) s at this
        omega
    | succ m ih =>
      intro k s hs hm
      have hi := sessionEnvF_inv hU h cwd new hf ψ hs
      rcases hi.progress (sessionEnvF_serves hU h cwd new hf ψ) hnw with hfin | ⟨t, ht⟩
      · exact ⟨k, s, hs, hfin.1⟩
      · have := Sched.Step.decreases ht
        change Sched.measure (x.paramsF u) t < Sched.measure (x.paramsF u) s at this
        exact ih (k + 1) t (.step hs ht) (by omega)
  exact key _ 0 _ .refl (Nat.le_refl _)

include hU h hf in
/-- no error returned: all files but those of the shards for which a line was logged are as a session without failures
leaves them -/
theorem SessionF.clean {d d' : Dir} {φ φ' : Fates} {rs : List (Option Front.Req)} {logged : Nat → Bool}
    (hs : Indexer.SessionF u J cwd x new d φ φ' ψ rs logged true d') (hr : ∀ r ∈ rs, r ≠ none) (hd : CfgOk J c d) :
    ∃ d0, Indexer.Session u J cwd x new d d0 ∧
      ∀ g, (∀ j, j < c.numShards.toNat → logged j = true → g ≠ .pos j ∧ g ≠ .iix j) → d' g = d0 g := by
  obtain ⟨h1, h2, h3, h4⟩ := hs
  rename_i front ρ k t
  have h1' := front_addsF_some cwd new h1 hr
  obtain ⟨front', g1, g2⟩ := Front.adds_rep cwd new h.front hf.ids hf.paths
  have e := h1'.symm.trans g1
  injection e with e
  injection e with e1 e2
  subst e2
  rw [e1] at h2
  obtain ⟨k', t', k1, k2⟩ := session_runs hU h cwd new hf
  obtain ⟨d0, k3, _⟩ := close_rep hU h cwd new hf k1 k2 g2 hd
  refine ⟨d0, .run g1 k1 k2 k3, ?_⟩
  obtain ⟨fs, hi, hm⟩ := g2
  have hb := Dmd.close_inv hi
  obtain ⟨m1, m2⟩ := closeShardsF_spec _ _ (closeF_true hb h4)
  unfold Indexer.close at k3
  rw [hb] at k3
  obtain ⟨m3, m4⟩ := closeShards_spec _ _ k3
  rw [h.nsh] at m1 m2 m3 m4
  intro g hg
  by_cases hj : ∃ j, j < c.numShards.toNat ∧ (g = .pos j ∨ g = .iix j)
  · obtain ⟨j, hj, hgj⟩ := hj
    have hlog : (t.servers j).shard.logged = false := by
      cases hl : (t.servers j).shard.logged with
      | false => rfl
      | true => have := hg j hj hl; rcases hgj with e | e <;> simp [e] at this
    obtain ⟨n1, _⟩ := session_shards hU h cwd new hf k1 k2 hj
    obtain ⟨n2, _⟩ := sessionF_shards hU h cwd new hf ψ h2 h3 hj
    have n3 := n1.symm.trans (FShard.addAll_true _ n2 hlog).2
    injection n3 with n3
    obtain ⟨ps, f, ρ, r1, r2, r3⟩ := m1 j hj
    obtain ⟨fl, s1, s2, s3⟩ := m3 j hj
    rw [n3, ShardIndexer.close, flushIndF_true _ r1] at s1
    simp only [bind, Except.bind, pure, Except.pure, Except.ok.injEq] at s1
    subst s1
    rcases hgj with rfl | rfl
    · rw [r2, s2]
    · rw [r3, s3]
  · have : ∀ j, j < c.numShards.toNat → g ≠ .pos j ∧ g ≠ .iix j :=
      fun j hj' => ⟨fun e => hj ⟨j, hj', .inl e⟩, fun e => hj ⟨j, hj', .inr e⟩⟩
    rw [m2 g this, m4 g this, h.cfg]

end
end Dupi
