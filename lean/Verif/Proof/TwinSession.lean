import Verif.Proof.TwinShard
import Verif.Proof.FaultsIndex
import Verif.Proof.CrashAppend
/-! # The sessions of two indexers open on one index -/

namespace Dupi
open Spec

section
variable {u : Uni} {J : CfgCodec} {c : Config} {x : Indexer} {docs : List Document} (hU : Usable J c) (h : IndexerRep u c x docs)
  (cwd : Bytes) (new : List Doc) (hf : Fits u c (docs ++ added cwd new)) (s0 : Nat → ShardIndexer)

/-- the goroutine system of a session adding `new`, with any shards -/
def sessionEnvS : Sched.Env Blotter ShardIndexer (UInt32 × Bytes) Post where
  P := x.params u
  b0 := (sessionEnv hU h cwd new hf).b0
  s0 := s0
  last := Dmd.last x.front.dmds
  docs := reqs (docs.length + 1) new
  out := (sessionEnv hU h cwd new hf).out
  Iw := (sessionEnv hU h cwd new hf).Iw
  iw0 := (sessionEnv hU h cwd new hf).iw0
  hcompute := (sessionEnv hU h cwd new hf).hcompute
  ids := (sessionEnv hU h cwd new hf).ids

/-- its initial state -/
def startS : Sched.St Blotter ShardIndexer (UInt32 × Bytes) Post :=
  Sched.init (fun w => x.blotters.getD w (.circ ⟨[], 0, 0⟩)) s0 (Dmd.last x.front.dmds) (reqs (docs.length + 1) new)

theorem sessionEnvS_base : (sessionEnvS hU h cwd new hf s0).base = docs.length := sessionEnv_base hU h cwd new hf

theorem sessionEnvS_posts (m j : Nat) (hj : j < c.numShards.toNat) (hm : m ≤ new.length) :
    ((sessionEnvS hU h cwd new hf s0).batches (docs.length + m) j).flatten.map serveBucket =
      shardPosts u c j (docs.length + 1) (added cwd (new.take m)) :=
  sessionEnv_posts hU h cwd new hf m j hj hm

theorem sessionS_serve (j : Nat) (hj : j < c.numShards.toNat) :
    Sched.serveAll (x.params u).serve (s0 j)
      ((sessionEnvS hU h cwd new hf s0).batches (docs.length + new.length) j).flatten =
    (s0 j).addAll (shardPosts u c j (docs.length + 1) (added cwd new)) := by
  rw [show (x.params u).serve = fun s p => let (d, b) := serveBucket p; s.add d b from rfl, serveAll_addAll,
    sessionEnvS_posts hU h cwd new hf s0 new.length j hj (Nat.le_refl _), List.take_length]

/-- the shards can take the posts -/
def Takes (u : Uni) (c : Config) (n0 : Nat) (new : List Document) (s0 : Nat → ShardIndexer) : Prop :=
  ∀ j, j < c.numShards.toNat → ∃ y, (s0 j).addAll (shardPosts u c j (n0 + 1) new) = .ok y

theorem sessionEnvS_serves (hs : Takes u c docs.length (added cwd new) s0) : (sessionEnvS hU h cwd new hf s0).Serves := by
  intro j hj
  have hj : j < c.numShards.toNat := by rw [← h.nsh]; exact hj
  obtain ⟨y, hy⟩ := hs j hj
  rw [sessionEnvS_base]
  refine ⟨y, ?_⟩
  rw [← hy, ← sessionS_serve hU h cwd new hf s0 j hj, ← reqs_length new (docs.length + 1)]
  rfl

theorem sessionEnvS_inv {k : Nat} {t : Sched.St Blotter ShardIndexer (UInt32 × Bytes) Post}
    (ht : Sched.Steps (x.params u) k (startS (x := x) (docs := docs) new s0) t) : Sched.Inv (sessionEnvS hU h cwd new hf s0) t :=
  Sched.Steps.inv (Γ := sessionEnvS hU h cwd new hf s0) ht Sched.Inv.init

include hU h hf in
/-- the shards at the end of a session -/
theorem sessionS_shards (hs : Takes u c docs.length (added cwd new) s0) {k : Nat} {t : Sched.St Blotter ShardIndexer (UInt32 × Bytes) Post}
    (ht : Sched.Steps (x.params u) k (startS (x := x) (docs := docs) new s0) t) (hc : t.client = .done) {j : Nat} (hj : j < c.numShards.toNat) :
    (s0 j).addAll (shardPosts u c j (docs.length + 1) (added cwd new)) = .ok (t.servers j).shard := by
  have hi := sessionEnvS_inv hU h cwd new hf s0 ht
  have hd := hi.done hc
  have hjn : j < (sessionEnvS hU h cwd new hf s0).P.n := by show j < x.shards.length; rw [h.nsh]; exact hj
  have := (hi.allDone hd (by rw [hc]; intro ds; exact nofun) hjn).2
  obtain ⟨y, hy⟩ := hs j hj
  rw [sessionEnvS_base, show (sessionEnvS hU h cwd new hf s0).docs.length = new.length from reqs_length _ _] at this
  have h2 := this.symm.trans ((sessionS_serve hU h cwd new hf s0 j hj).trans hy)
  injection h2 with h2
  rw [h2]
  exact hy

include hU h hf in
/-- there is a complete execution -/
theorem sessionS_runs (hs : Takes u c docs.length (added cwd new) s0) :
    ∃ k t, Sched.Steps (x.params u) k (startS (x := x) (docs := docs) new s0) t ∧ t.client = .done := by
  have hnw : 0 < (sessionEnvS hU h cwd new hf s0).P.nw := by
    show 0 < x.blotters.length
    rw [h.nw]; have := hU.shatters; omega
  have key : ∀ m k s, Sched.Steps (x.params u) k (startS (x := x) (docs := docs) new s0) s → Sched.measure (x.params u) s ≤ m →
      ∃ k t, Sched.Steps (x.params u) k (startS (x := x) (docs := docs) new s0) t ∧ t.client = .done := by
    intro m
    induction m with
    | zero =>
      intro k s hs' hm
      have hi := sessionEnvS_inv hU h cwd new hf s0 hs'
      rcases hi.progress (sessionEnvS_serves hU h cwd new hf s0 hs) hnw with hfin | ⟨t, ht⟩
      · exact ⟨k, s, hs', hfin.1⟩
      · have := Sched.Step.decreases ht
        change _ < Sched.measure (x.params u) s at this
        omega
    | succ m ih =>
      intro k s hs' hm
      have hi := sessionEnvS_inv hU h cwd new hf s0 hs'
      rcases hi.progress (sessionEnvS_serves hU h cwd new hf s0 hs) hnw with hfin | ⟨t, ht⟩
      · exact ⟨k, s, hs', hfin.1⟩
      · have := Sched.Step.decreases ht
        change Sched.measure (x.params u) t < Sched.measure (x.params u) s at this
        exact ih (k + 1) t (.step hs' ht) (by omega)
  exact key _ 0 _ .refl (Nat.le_refl _)

end

/-! ### Records -/

/-- bytes `a` were put into the file behind the first `b0` ones: the adder does not notice -/
theorem dmd_add_insert (t : Dmd.Adder) (b0 a w : Bytes) (x : Fields) :
    ∃ id t' w', Dmd.add t (some (b0 ++ w)) x = (id, t', some (b0 ++ w')) ∧ Dmd.add t (some (b0 ++ a ++ w)) x = (id, t', some (b0 ++ a ++ w')) := by
  unfold Dmd.add
  by_cases hc : UInt32.ofNat t.buf.length = t.flushRate
  · simp only [if_pos hc, Dmd.flush, Option.getD_some]
    exact ⟨_, _, w ++ t.buf.flatMap Dmd.encode, by rw [List.append_assoc], by rw [List.append_assoc (b0 ++ a)]⟩
  · simp only [if_neg hc]
    exact ⟨_, _, w, rfl, rfl⟩

theorem front_adds_insert (cwd : Bytes) (new : List Doc) (b0 a : Bytes) : ∀ (t : Fnames.Table) (m : Dmd.Adder) (w : Bytes) {rs : List Front.Req} {y : Front},
    (⟨t, m, some (b0 ++ w)⟩ : Front).adds cwd new = .ok (rs, y) →
    ∃ w', y.file = some (b0 ++ w') ∧ (⟨t, m, some (b0 ++ a ++ w)⟩ : Front).adds cwd new = .ok (rs, ⟨y.fnames, y.dmds, some (b0 ++ a ++ w')⟩) := by
  induction new with
  | nil =>
    intro t m w rs y h
    simp only [Front.adds, Except.ok.injEq, Prod.mk.injEq] at h
    obtain ⟨rfl, rfl⟩ := h
    exact ⟨w, rfl, rfl⟩
  | cons doc new ih =>
    intro t m w rs y h
    simp only [Front.adds, Front.add, bind, Except.bind, pure, Except.pure] at h ⊢
    cases hp : Fnames.addPath cwd t doc.path with
    | error e => simp [hp] at h
    | ok r =>
      obtain ⟨n, t'⟩ := r
      obtain ⟨id, m', w', g1, g2⟩ := dmd_add_insert m b0 a w ⟨n, doc.start, doc.stop⟩
      simp only [hp, g1, g2] at h ⊢
      cases hq : (⟨t', m', some (b0 ++ w')⟩ : Front).adds cwd new with
      | error e => simp [hq] at h
      | ok r2 =>
        obtain ⟨rs2, y2⟩ := r2
        obtain ⟨w2, k1, k2⟩ := ih t' m' w' hq
        simp only [hq, Except.ok.injEq, Prod.mk.injEq] at h
        obtain ⟨rfl, rfl⟩ := h
        exact ⟨w2, k1, by simp only [k2]⟩

theorem dmd_close_insert (m : Dmd.Adder) (b0 a w : Bytes) :
    ∃ w', Dmd.close m (some (b0 ++ w)) = some (b0 ++ w') ∧ Dmd.close m (some (b0 ++ a ++ w)) = some (b0 ++ a ++ w') := by
  unfold Dmd.close
  by_cases hc : m.buf.length = 0
  · exact ⟨w, by rw [if_pos hc], by rw [if_pos hc]⟩
  · rw [if_neg hc, if_neg hc]
    simp only [Dmd.flush, Option.getD_some]
    exact ⟨w ++ m.buf.flatMap Dmd.encode, by rw [List.append_assoc], by rw [List.append_assoc (b0 ++ a)]⟩

/-- a prefix of encoded records, of the length of some records -/
theorem encode_split (fs gs : List Fields) (w : Bytes) (h : fs.flatMap Dmd.encode ++ w = gs.flatMap Dmd.encode) :
    ∃ hs, gs = fs ++ hs ∧ w = hs.flatMap Dmd.encode := by
  induction fs generalizing gs with
  | nil => exact ⟨gs, rfl, by simpa using h⟩
  | cons f fs ih =>
    cases gs with
    | nil =>
      have := congrArg List.length h
      simp [Dmd.encode_length] at this
    | cons g gs =>
      simp only [List.flatMap_cons, List.append_assoc] at h
      have h1 := List.append_inj h (by simp [Dmd.encode_length])
      obtain ⟨hs, rfl, k2⟩ := ih gs h1.2
      refine ⟨hs, ?_, k2⟩
      have : f = g := by
        have e := h1.1
        have l1 := Dmd.lookup_encode [f] 0 (by simp)
        have l2 := Dmd.lookup_encode [g] 0 (by simp)
        simp only [List.flatMap_cons, List.flatMap_nil, List.append_nil, e] at l1 l2
        rw [l1] at l2
        simpa using l2
      rw [this]; rfl

end Dupi
