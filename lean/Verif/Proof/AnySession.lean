import Verif.Proof.AnyTableAdd
import Verif.Proof.AnyShardAdd
import Verif.Props.AnyAppend
/-! Sessions on a directory of any contents that could be opened. -/

namespace Dupi
open Spec

/-! ## Records -/

/-- the file began as `D`, of which `m` whole records count; the records `hist` were added -/
def Dmd.Pile (a : Dmd.Adder) (file : Option Bytes) (D : Bytes) (m : Nat) (hist : List Fields) : Prop :=
  ∃ done, hist = done ++ a.buf ∧ file.getD [] = D ++ done.flatMap Dmd.encode ∧ a.flushed = UInt32.ofNat (m + done.length) ∧ (a.buf = [] → file.isSome)

theorem u32_ofNat_add (a b : Nat) : UInt32.ofNat a + UInt32.ofNat b = UInt32.ofNat (a + b) := by
  apply UInt32.toNat_inj.mp
  simp only [UInt32.toNat_add, UInt32.toNat_ofNat']
  omega

theorem Dmd.Pile.flush {a : Dmd.Adder} {file : Option Bytes} {D : Bytes} {m : Nat} {hist : List Fields} (h : Dmd.Pile a file D m hist) :
    Dmd.Pile (Dmd.flush a file).1 (Dmd.flush a file).2 D m hist ∧ (Dmd.flush a file).2 = some (D ++ hist.flatMap Dmd.encode) := by
  obtain ⟨done, e1, e2, e3, e4⟩ := h
  have : file.getD [] ++ a.buf.flatMap Dmd.encode = D ++ hist.flatMap Dmd.encode := by rw [e2, e1, List.flatMap_append, List.append_assoc]
  refine ⟨⟨hist, by simp [Dmd.flush], by simp only [Dmd.flush, Option.getD_some]; exact this, ?_, by simp [Dmd.flush]⟩, by simp only [Dmd.flush]; rw [this]⟩
  simp only [Dmd.flush, e3, u32_ofNat_add, e1, List.length_append]
  rw [Nat.add_assoc]

theorem Dmd.Pile.add {a : Dmd.Adder} {file : Option Bytes} {D : Bytes} {m : Nat} {hist : List Fields} (h : Dmd.Pile a file D m hist) (f : Fields) :
    (Dmd.add a file f).1 = UInt32.ofNat (m + hist.length) ∧ Dmd.Pile (Dmd.add a file f).2.1 (Dmd.add a file f).2.2 D m (hist ++ [f]) := by
  have key : ∀ {a : Dmd.Adder} {file : Option Bytes}, Dmd.Pile a file D m hist → UInt32.ofNat a.buf.length + a.flushed = UInt32.ofNat (m + hist.length) ∧
      Dmd.Pile { a with buf := a.buf ++ [f] } file D m (hist ++ [f]) := by
    rintro a file ⟨done, e1, e2, e3, e4⟩
    refine ⟨?_, done, by simp [e1], e2, e3, by simp⟩
    rw [e3, u32_ofNat_add, e1, List.length_append]
    congr 1; omega
  unfold Dmd.add
  by_cases hf : UInt32.ofNat a.buf.length = a.flushRate
  · simp only [hf, if_true]
    exact key h.flush.1
  · simp only [hf, if_false]
    exact key h

theorem Dmd.Pile.close {a : Dmd.Adder} {file : Option Bytes} {D : Bytes} {m : Nat} {hist : List Fields} (h : Dmd.Pile a file D m hist) :
    Dmd.close a file = some (D ++ hist.flatMap Dmd.encode) := by
  unfold Dmd.close
  by_cases h0 : a.buf.length = 0
  · rw [if_pos h0]
    have h0' := List.length_eq_zero_iff.mp h0
    obtain ⟨done, e1, e2, e3, e4⟩ := h
    rw [h0', List.append_nil] at e1
    obtain ⟨b, hb⟩ := Option.isSome_iff_exists.mp (e4 h0')
    rw [hb] at e2 ⊢
    rw [e1]
    exact congrArg some e2
  · rw [if_neg h0]; exact h.flush.2

theorem Dmd.Pile.last {a : Dmd.Adder} {file : Option Bytes} {D : Bytes} {m : Nat} {hist : List Fields} (h : Dmd.Pile a file D m hist) (h1 : 0 < m + hist.length)
    (h2 : m + hist.length ≤ 2 ^ 32) : (Dmd.last a).toNat = m + hist.length - 1 := by
  obtain ⟨done, e1, e2, e3, e4⟩ := h
  have hl : hist.length = done.length + a.buf.length := by rw [e1, List.length_append]
  unfold Dmd.last
  rw [e3, u32_ofNat_add]
  rw [show m + done.length + a.buf.length = (m + hist.length - 1) + 1 by omega, ← u32_ofNat_add]
  rw [show UInt32.ofNat 1 = 1 from rfl, UInt32.add_sub_cancel, UInt32.toNat_ofNat']
  omega

/-- the bytes of records in the file when a session begins: those there were, and the record of no document if there was none -/
def startRecords (D : Bytes) : List Fields := if D.length < 12 then [Dmd.zeroFields] else []

theorem Leads.mono {ns ns' : List (Bytes × Nat)} (h : ns <+: ns') {i : Nat} {cs : List Bytes} (hl : Leads ns i cs) : Leads ns' i cs := by
  obtain ⟨t, rfl⟩ := h
  induction hl with
  | root => exact .root
  | step h0 h1 _ ih => exact .step h0 (by rw [List.getElem?_append_left (List.getElem?_eq_some_iff.mp h1).1]; exact h1) ih

theorem Comps.mono {t t' : Fnames.Table} (h : t.map Fnames.says <+: t'.map Fnames.says) {i : Nat} {cs : List Bytes} (hl : Fnames.Comps t i cs) : Fnames.Comps t' i cs :=
  Fnames.leads_comps.mp (Leads.mono h (Fnames.leads_comps.mpr hl))

/-- what is to be known of the record of a document -/
structure RecordOf (t : Fnames.Table) (cwd : Bytes) (doc : Doc) (f : Fields) : Prop where
  start : f.start = doc.start
  stop : f.stop = doc.stop
  lt : f.fid.toNat < t.length
  comps : Fnames.Comps t f.fid.toNat (Fnames.pathParts (absPath cwd doc.path))

theorem RecordOf.mono {t t' : Fnames.Table} (h : t.map Fnames.says <+: t'.map Fnames.says) {cwd : Bytes} {doc : Doc} {f : Fields} (hr : RecordOf t cwd doc f) :
    RecordOf t' cwd doc f := by
  have := h.length_le
  rw [List.length_map, List.length_map] at this
  exact ⟨hr.start, hr.stop, by have := hr.lt; omega, Comps.mono h hr.comps⟩

theorem pathParts_small (cwd p : Bytes) : (Fnames.pathParts (absPath cwd p)).length ≤ (absPath cwd p).length ∧
    ∀ nm ∈ Fnames.pathParts (absPath cwd p), nm.length ≤ (absPath cwd p).length := by
  obtain ⟨r, hr, hpp⟩ := Fnames.pathParts_abs cwd p
  rw [hpp, hr, List.length_cons]
  refine ⟨splitSlash_length_le r, fun nm h => ?_⟩
  have := Fnames.splitSlash_mem_length r nm h
  omega

/-- adding documents, whatever the table and the records are -/
theorem Front.adds_any (cwd : Bytes) (new : List Doc) : ∀ {x : Front} {D : Bytes} {m : Nat} {hist : List Fields}, Fnames.Loose x.fnames → x.fnames ≠ [] ∨ new = [] →
    Dmd.Pile x.dmds x.file D m hist → x.fnames.length + (new.map fun d => (absPath cwd d.path).length).sum < 2 ^ 32 →
    ∃ x' gs, x.adds cwd new = .ok (reqs (m + hist.length) new, x') ∧ gs.length = new.length ∧ Dmd.Pile x'.dmds x'.file D m (hist ++ gs) ∧
      Fnames.Loose x'.fnames ∧ x.fnames.map Fnames.says <+: x'.fnames.map Fnames.says ∧ x'.fnames.length < 2 ^ 32 ∧
      ∀ (i : Nat) (doc : Doc) (f : Fields), new[i]? = some doc → gs[i]? = some f → RecordOf x'.fnames cwd doc f := by
  induction new with
  | nil => intro x D m hist h1 h2 h3 h4; exact ⟨x, [], rfl, rfl, by simpa using h3, h1, List.prefix_refl _, by simpa using h4, by simp⟩
  | cons d new ih =>
    intro x D m hist h1 h2 h3 h4
    simp only [List.map_cons, List.sum_cons] at h4
    obtain ⟨s1, s2⟩ := pathParts_small cwd d.path
    obtain ⟨v, t', a1, a2, a3, a4, a5, a6⟩ := Fnames.addParts_loose (Fnames.pathParts (absPath cwd d.path)) (p := 0) h1 (List.length_pos_iff.mpr (h2.resolve_right (by simp))) .root (by omega)
      (fun nm h => by have := s2 nm h; omega)
    rw [List.nil_append] at a4
    obtain ⟨b1, b2⟩ := h3.add ⟨v, d.start, d.stop⟩
    generalize hr : Dmd.add x.dmds x.file ⟨v, d.start, d.stop⟩ = r at b1 b2
    obtain ⟨id, a, f⟩ := r
    simp only [] at b1 b2
    obtain ⟨x2, gs, c1, c2, c3, c4, c5, c6, c7⟩ := ih (x := ⟨t', a, f⟩) a2 (.inl fun e => by simp only [] at e; rw [e] at a3; exact absurd a3 (by simp)) b2 (by simp only []; omega)
    refine ⟨x2, ⟨v, d.start, d.stop⟩ :: gs, ?_, by simp [c2], by simpa using c3, c4, a5.trans c5, c6, ?_⟩
    · rw [List.length_append, List.length_singleton, ← Nat.add_assoc] at c1
      simp only [Front.adds, Front.add, Fnames.addPath, a1, hr, c1, bind, Except.bind, pure, Except.pure, reqs, b1]
    · intro i doc f' hi hf
      cases i with
      | zero =>
        simp only [List.getElem?_cons_zero, Option.some.injEq] at hi hf
        subst hi hf
        exact RecordOf.mono c5 ⟨rfl, rfl, a3, a4⟩
      | succ i =>
        simp only [List.getElem?_cons_succ] at hi hf
        exact c7 i doc f' hi hf

/-- without any node nothing can be added -/
theorem Front.adds_empty (cwd : Bytes) {x : Front} (h : x.fnames = []) {new : List Doc} (hn : new ≠ []) : x.adds cwd new = .error .panic := by
  cases new with
  | nil => exact absurd rfl hn
  | cons d new =>
    obtain ⟨r, _, hpp⟩ := Fnames.pathParts_abs cwd d.path
    have : Fnames.pathParts (absPath cwd d.path) ≠ [] := by
      rw [hpp]; exact splitSlash_ne_nil r
    simp only [Front.adds, Front.add, Fnames.addPath, h, Fnames.addParts_empty 0 this, bind, Except.bind]

/-! ## The goroutines -/

/-- the open indexer `x`: the next id is `k + 1` -/
structure AnyRep (c : Config) (x : Indexer) (k : Nat) : Prop where
  cfg : x.config = c
  last : (Dmd.last x.front.dmds).toNat = k
  nw : x.blotters.length = c.numShatters.toNat
  bl : ∀ b ∈ x.blotters, ∃ l, BlotRepL b c.blotConfig.seqLen.toNat c.blotConfig.interleave.toNat l
  nsh : x.shards.length = c.numShards.toNat
  sh : ∀ s ∈ x.shards, ShardSafe s ∧ ∀ p ∈ s.ind, p.posts = []

/-- the goroutine system of a session adding `new` -/
def anyEnv (u : Uni) {J : CfgCodec} {c : Config} {x : Indexer} {k : Nat} (hU : Usable J c) (h : AnyRep c x k)
    (new : List Doc) (hf : k + new.length + 1 < 2 ^ 32) : Sched.Env Blotter ShardIndexer (UInt32 × Bytes) Post where
  P := x.params u
  b0 := fun w => x.blotters.getD w (.circ ⟨[], 0, 0⟩)
  s0 := fun j => x.shards.getD j ⟨[], []⟩
  last := Dmd.last x.front.dmds
  docs := reqs (k + 1) new
  out := fun did d j => outPosts u c did d.2 j
  Iw := fun b => ∃ l, BlotRepL b c.blotConfig.seqLen.toNat c.blotConfig.interleave.toNat l
  iw0 := by
    intro w hw
    change w < x.blotters.length at hw
    rw [List.getD_eq_getElem?_getD, List.getElem?_eq_getElem hw]
    exact h.bl _ (List.getElem_mem hw)
  hcompute := by
    rintro b did ⟨off, dat⟩ ⟨l, hl⟩
    have hn := h.nsh
    have h1 := hU.shards
    have h2 := hU.shardsSmall
    obtain ⟨b', g1, g2⟩ := compute_spec u _ _ x.shards.length (by omega) (by omega) b l hl did off dat
    refine ⟨b', ?_, _, g2⟩
    simp only [Indexer.params, h.cfg, hU.cons.seqLen_eq, g1, bind, Except.bind, pure, Except.pure]
    simp only [outPosts, blotsOf_eq, ← hn]
  ids := by
    intro i r hr
    rw [h.last]
    rw [reqs_getElem, Option.map_eq_some_iff] at hr
    obtain ⟨d, hd', rfl⟩ := hr
    have hk : i < new.length := (List.getElem?_eq_some_iff.mp hd').1
    simp only [UInt32.toNat_ofNat']
    omega

section
variable {u : Uni} {J : CfgCodec} {c : Config} {x : Indexer} {k : Nat} (hU : Usable J c) (h : AnyRep c x k)
  (cwd : Bytes) (new : List Doc) (hf : k + new.length + 1 < 2 ^ 32)

theorem anyEnv_base : (anyEnv u hU h new hf).base = k := h.last

theorem anyEnv_batches (j : Nat) (hj : j < c.numShards.toNat) :
    ((anyEnv u hU h new hf).batches (k + new.length) j).flatten.map serveBucket = shardPosts u c j (k + 1) (added cwd new) := by
  have hb := anyEnv_base (u := u) hU h new hf
  rw [Sched.Env.batches_take _ _ _ (by rw [hb]; show _ ≤ k + (reqs _ _).length; rw [reqs_length]), hb]
  show (List.map (fun x => outPosts u c x.1 x.2.2 j) (List.take (k + new.length - k) (reqs (k + 1) new))).flatten.map serveBucket = _
  have := hU.shardsSmall
  rw [Nat.add_sub_cancel_left, show new.length = (reqs (k + 1) new).length from (reqs_length _ _).symm, List.take_length, reqs_posts u c j hj (by omega) cwd]

theorem any_shard (j : Nat) (hj : j < c.numShards.toNat) :
    ∃ y, Sched.serveAll (x.params u).serve (x.shards.getD j ⟨[], []⟩) ((anyEnv u hU h new hf).batches (k + new.length) j).flatten = .ok y ∧
      (x.shards.getD j ⟨[], []⟩).addAll (shardPosts u c j (k + 1) (added cwd new)) = .ok y := by
  have hjx : j < x.shards.length := by rw [h.nsh]; exact hj
  rw [show (x.params u).serve = fun s p => let (d, b) := serveBucket p; s.add d b from rfl, serveAll_addAll,
    anyEnv_batches hU h cwd new hf j hj, List.getD_eq_getElem?_getD, List.getElem?_eq_getElem hjx, Option.getD_some]
  obtain ⟨y, hy, _⟩ := (h.sh _ (List.getElem_mem hjx)).1.addAll (shardPosts u c j (k + 1) (added cwd new)) (shardPosts_bucket u c j _ _)
  exact ⟨y, hy, hy⟩

theorem anyEnv_serves : (anyEnv u hU h new hf).Serves := by
  intro j hj
  have hj : j < c.numShards.toNat := by rw [← h.nsh]; exact hj
  obtain ⟨y, hy, _⟩ := any_shard (u := u) hU h [] new hf j hj
  rw [anyEnv_base]
  refine ⟨y, ?_⟩
  show Sched.serveAll (x.params u).serve (x.shards.getD j ⟨[], []⟩) ((anyEnv u hU h new hf).batches (k + (reqs _ _).length) j).flatten = .ok y
  rw [reqs_length]; exact hy

theorem anyEnv_inv {st : Nat} {t : Sched.St Blotter ShardIndexer (UInt32 × Bytes) Post}
    (ht : Sched.Steps (x.params u) st (x.start (reqs (k + 1) new)) t) : Sched.Inv (anyEnv u hU h new hf) t :=
  Sched.Steps.inv (Γ := anyEnv u hU h new hf) ht Sched.Inv.init

include hU h hf in
/-- at the end of a session all the posts are in the shards -/
theorem any_shards {st : Nat} {t : Sched.St Blotter ShardIndexer (UInt32 × Bytes) Post}
    (ht : Sched.Steps (x.params u) st (x.start (reqs (k + 1) new)) t) (hc : t.client = .done) {j : Nat} (hj : j < c.numShards.toNat) :
    (x.shards.getD j ⟨[], []⟩).addAll (shardPosts u c j (k + 1) (added cwd new)) = .ok (t.servers j).shard := by
  have hi := anyEnv_inv hU h new hf ht
  have hd := hi.done hc
  have hjn : j < (anyEnv u hU h new hf).P.n := by show j < x.shards.length; rw [h.nsh]; exact hj
  have := (hi.allDone hd (by rw [hc]; intro ds; exact nofun) hjn).2
  obtain ⟨y, hy, hr⟩ := any_shard (u := u) hU h cwd new hf j hj
  rw [anyEnv_base, show (anyEnv u hU h new hf).docs.length = new.length from reqs_length _ _] at this
  have h2 := this.symm.trans hy
  injection h2 with h2
  rw [h2]; exact hr

include hU h hf in
/-- there is a complete execution -/
theorem any_runs : ∃ st t, Sched.Steps (x.params u) st (x.start (reqs (k + 1) new)) t ∧ t.client = .done := by
  have hnw : 0 < (anyEnv u hU h new hf).P.nw := by
    show 0 < x.blotters.length
    rw [h.nw]; have := hU.shatters; omega
  have key : ∀ m st s, Sched.Steps (x.params u) st (x.start (reqs (k + 1) new)) s → Sched.measure (x.params u) s ≤ m →
      ∃ st t, Sched.Steps (x.params u) st (x.start (reqs (k + 1) new)) t ∧ t.client = .done := by
    intro m
    induction m with
    | zero =>
      intro st s hs hm
      have hi := anyEnv_inv hU h new hf hs
      rcases hi.progress (anyEnv_serves hU h new hf) hnw with hfin | ⟨t, ht⟩
      · exact ⟨st, s, hs, hfin.1⟩
      · have := Sched.Step.decreases ht
        change _ < Sched.measure (x.params u) s at this
        omega
    | succ m ih =>
      intro st s hs hm
      have hi := anyEnv_inv hU h new hf hs
      rcases hi.progress (anyEnv_serves hU h new hf) hnw with hfin | ⟨t, ht⟩
      · exact ⟨st, s, hs, hfin.1⟩
      · have := Sched.Step.decreases ht
        change Sched.measure (x.params u) t < Sched.measure (x.params u) s at this
        exact ih (st + 1) t (.step hs ht) (by omega)
  exact key _ 0 _ .refl (Nat.le_refl _)

end

/-! ## Closing -/

theorem closeShards_safe (sh : Nat → ShardIndexer) (n : Nat) (h : ∀ j, j < n → ShardSafe (sh j)) (d : Dir) :
    ∃ d', Indexer.closeShards sh n d = .ok d' ∧ d' .cfg = d .cfg ∧ d' .fnm = d .fnm ∧ d' .dmd = d .dmd ∧
      ∀ j, j < n → ∃ y, (sh j).close = .ok ⟨y.file, y.ind.flatMap ShardIndexer.iixEntry⟩ ∧ d' (.pos j) = some y.file ∧ d' (.iix j) = some (y.ind.flatMap ShardIndexer.iixEntry) ∧
        ShardSafe y ∧ ShardGoes (fun k => ∃ p, (sh j).ind[k]? = some p ∧ p.posts ≠ []) (sh j) y := by
  induction n with
  | zero => exact ⟨d, rfl, rfl, rfl, rfl, fun j hj => absurd hj (by omega)⟩
  | succ n ih =>
    obtain ⟨d1, h1, h2, h3, h4, h5⟩ := ih (fun j hj => h j (by omega))
    obtain ⟨y, g1, g2, g3⟩ := (h n (by omega)).close
    refine ⟨_, by simp only [Indexer.closeShards, h1, g1, bind, Except.bind, pure, Except.pure]; rfl, ?_, ?_, ?_, ?_⟩
    · simp [Dir.set, h2]
    · simp [Dir.set, h3]
    · simp [Dir.set, h4]
    · intro j hj
      by_cases e : j = n
      · subst e
        exact ⟨y, g1, by simp [Dir.set], by simp [Dir.set], g2, g3⟩
      · obtain ⟨y', k0, k1, k2, k3⟩ := h5 j (by omega)
        exact ⟨y', k0, by simp [Dir.set, e, k1], by simp [Dir.set, e, k2], k3⟩

/-- a directory that was opened to append -/
theorem open_any {d : Dir} {x : Indexer} (hx : Indexer.open Json.codec d = .ok x) (hU : Usable Json.codec x.config)
    (hsm : ((d .dmd).getD []).length / 12 < 2 ^ 32) :
    Fnames.Loose x.front.fnames ∧ Dmd.Pile x.front.dmds x.front.file ((d .dmd).getD []) (((d .dmd).getD []).length / 12) (startRecords ((d .dmd).getD [])) ∧
    AnyRep x.config x (((d .dmd).getD []).length / 12 + (startRecords ((d .dmd).getD [])).length - 1) := by
  obtain ⟨ns, hb, s1, s2, s3, s4, s5, s6⟩ := Props.C116_state hx
  obtain ⟨a, t, t1, ha, ho⟩ := Props.open_begun hb
  have hloose : Fnames.Loose x.front.fnames := by
    obtain ⟨f, f1, f2⟩ := hb.2.2.2.1
    obtain ⟨t', q1, q2⟩ := Fnames.read_of_table f2
    have : Indexer.open Json.codec d = (Indexer.openShards d x.config.numShards.toNat 0).bind fun xs => (Indexer.makeBlotters x.config).bind fun bs => .ok ⟨x.config, ⟨t', a, d .dmd⟩, bs, xs⟩ := by
      simp only [Indexer.open, bind, Except.bind, pure, Except.pure, hb.1, Indexer.makeShards]
      rw [if_neg (by have := hb.2.1; omega)]
      simp only [ha, Dir.read, f1, q1, TokenConfig.fromConfig, if_pos hb.2.2.2.2]
    rw [hx] at this
    cases h1 : Indexer.openShards d x.config.numShards.toNat 0 with
    | error e => rw [h1] at this; cases this
    | ok xs =>
      cases h2 : Indexer.makeBlotters x.config with
      | error e => rw [h1, h2] at this; cases this
      | ok bs =>
        rw [h1, h2] at this
        simp only [Except.bind, Except.ok.injEq] at this
        have e : x.front.fnames = t' := by rw [this]
        rw [e]
        exact Fnames.read_loose q1
  have hbl : x.blotters.length = x.config.numShatters.toNat ∧ ∀ b ∈ x.blotters, ∃ l, BlotRepL b x.config.blotConfig.seqLen.toNat x.config.blotConfig.interleave.toNat l := by
    obtain ⟨bs, b1, b2, b3⟩ := makeBlotters_rep hU
    rw [hx, b1] at ho
    cases h1 : Indexer.openShards d x.config.numShards.toNat 0 with
    | error e => rw [h1] at ho; cases ho
    | ok xs =>
      rw [h1] at ho
      simp only [Except.bind, Except.ok.injEq] at ho
      have e : x.blotters = bs := by rw [ho]
      rw [e]; exact ⟨b2, b3⟩
  have hfl : x.front.dmds.flushed = UInt32.ofNat (((d .dmd).getD []).length / 12) := by
    apply UInt32.toNat_inj.mp; rw [s3, UInt32.toNat_ofNat']
  have hbuf : x.front.dmds.buf = startRecords ((d .dmd).getD []) := by
    rw [s4]; unfold startRecords
    have : x.front.dmds.flushed = 0 ↔ ((d .dmd).getD []).length < 12 := by
      rw [← UInt32.toNat_inj, s3]
      show _ = 0 ↔ _
      omega
    by_cases h0 : ((d .dmd).getD []).length < 12
    · rw [if_pos (this.mpr h0), if_pos h0]; rfl
    · rw [if_neg (fun e => h0 (this.mp e)), if_neg h0]
  have hpile : Dmd.Pile x.front.dmds x.front.file ((d .dmd).getD []) (((d .dmd).getD []).length / 12) (startRecords ((d .dmd).getD [])) := by
    refine ⟨[], by rw [hbuf]; rfl, by rw [s2]; simp, by rw [hfl]; rfl, fun h0 => ?_⟩
    rw [hbuf] at h0
    rw [s2]
    cases hd : d .dmd with
    | some b => rfl
    | none => rw [hd] at h0; cases h0
  have hpos : 0 < ((d .dmd).getD []).length / 12 + (startRecords ((d .dmd).getD [])).length := by
    unfold startRecords; split
    · simp
    · simp only [List.length_nil]; omega
  have hle : ((d .dmd).getD []).length / 12 + (startRecords ((d .dmd).getD [])).length ≤ 2 ^ 32 := by
    unfold startRecords; split
    · simp only [List.length_singleton]; omega
    · simp only [List.length_nil]; omega
  refine ⟨hloose, hpile, rfl, hpile.last hpos hle, hbl.1, hbl.2, s5, ?_⟩
  intro s hs
  obtain ⟨i, hi⟩ := List.mem_iff_getElem?.mp hs
  obtain ⟨es, k1, k2, k3⟩ := s6 i s hi
  obtain ⟨iix, m1, m2, m3, m4⟩ := k1
  refine ⟨⟨k2, fun p hp => ?_⟩, fun p hp => ?_⟩
  all_goals
    obtain ⟨k, hk⟩ := List.mem_iff_getElem?.mp hp
    have hlt : k < es.length := by rw [m4, ← k2]; exact (List.getElem?_eq_some_iff.mp hk).1
    obtain ⟨p', q1, q2, q3, _, _, q7⟩ := k3 k _ (List.getElem?_eq_getElem hlt)
    rw [hk] at q1; injection q1 with q1; subst q1
  · rcases q3 with ⟨_, q⟩ | ⟨_, k', q', n, v, q4, q5, q6⟩
    · exact .inl q
    · obtain ⟨⟨r1, _⟩, r2, _, r4, _⟩ := q5
      exact .inr (by omega)
  · exact q7

/-- what a session on such a directory does -/
theorem session_any {u : Uni} {d d' : Dir} {x : Indexer} {cwd : Bytes} {new : List Doc} (hx : Indexer.open Json.codec d = .ok x) (hU : Usable Json.codec x.config)
    (hids : ((d .dmd).getD []).length / 12 + (startRecords ((d .dmd).getD [])).length + new.length < 2 ^ 32)
    (hp : x.front.fnames.length + (new.map fun d => (absPath cwd d.path).length).sum < 2 ^ 32) :
    let D := (d .dmd).getD []
    let n := D.length / 12 + (startRecords D).length
    (x.front.fnames ≠ [] ∨ new = [] → ∃ d', Indexer.Session u Json.codec cwd x new d d') ∧
    (Indexer.Session u Json.codec cwd x new d d' → (x.front.fnames ≠ [] ∨ new = []) ∧
      d' .cfg = some (writeAt ((d .cfg).getD []) 0 (Json.codec.enc x.config ++ [10])) ∧
      (∃ (gs : List Fields) (t : Fnames.Table), gs.length = new.length ∧ Fnames.Loose t ∧ x.front.fnames.map Fnames.says <+: t.map Fnames.says ∧ t.length < 2 ^ 32 ∧
        (∀ (i : Nat) (doc : Doc) (f : Fields), new[i]? = some doc → gs[i]? = some f → RecordOf t cwd doc f) ∧
        d' .fnm = some (Fnames.write t) ∧ d' .dmd = some (D ++ (startRecords D ++ gs).flatMap Dmd.encode)) ∧
      ∀ j, j < x.config.numShards.toNat → ∃ s y z, x.shards[j]? = some s ∧ s.addAll (shardPosts u x.config j n (added cwd new)) = .ok y ∧
        y.close = .ok ⟨z.file, z.ind.flatMap ShardIndexer.iixEntry⟩ ∧ d' (.pos j) = some z.file ∧ d' (.iix j) = some (z.ind.flatMap ShardIndexer.iixEntry) ∧
        ShardSafe z ∧ ShardGoes (fun k => ∃ q ∈ shardPosts u x.config j n (added cwd new), q.2 = k) s z) := by
  intro D n
  obtain ⟨o1, o2, o3⟩ := open_any hx hU (by omega)
  have hpos : 0 < n := by
    show 0 < D.length / 12 + (startRecords D).length
    unfold startRecords; split
    · simp
    · simp only [List.length_nil]; omega
  have hn1 : n - 1 + 1 = n := by omega
  have hf : (n - 1) + new.length + 1 < 2 ^ 32 := by
    have : n + new.length < 2 ^ 32 := hids
    omega
  change AnyRep x.config x (n - 1) at o3
  change Dmd.Pile x.front.dmds x.front.file D (D.length / 12) (startRecords D) at o2
  -- the shards when all the posts are there
  have shards : ∀ {st : Nat} {t : Sched.St Blotter ShardIndexer (UInt32 × Bytes) Post}, Sched.Steps (x.params u) st (x.start (reqs n new)) t → t.client = .done →
      ∀ j, j < x.config.numShards.toNat → ∃ s, x.shards[j]? = some s ∧ s.addAll (shardPosts u x.config j n (added cwd new)) = .ok (t.servers j).shard ∧
        ShardSafe (t.servers j).shard ∧ ShardGoes (fun k => ∃ q ∈ shardPosts u x.config j n (added cwd new), q.2 = k) s (t.servers j).shard ∧ ∀ p ∈ s.ind, p.posts = [] := by
    intro st t ht hc j hj
    have := any_shards hU o3 cwd new hf (by rw [hn1]; exact ht) hc hj
    rw [hn1] at this
    have hjx : j < x.shards.length := by rw [o3.nsh]; exact hj
    have hg := List.getElem?_eq_getElem hjx
    rw [List.getD_eq_getElem?_getD, hg, Option.getD_some] at this
    obtain ⟨y, y1, y2, y3⟩ := (o3.sh _ (List.getElem_mem hjx)).1.addAll (shardPosts u x.config j n (added cwd new)) (shardPosts_bucket u _ j _ _)
    rw [this] at y1
    injection y1 with y1
    subst y1
    exact ⟨_, hg, this, y2, y3, (o3.sh _ (List.getElem_mem hjx)).2⟩
  constructor
  · intro hne
    obtain ⟨f', gs, a1, a2, a3, a4, a5, a6, a7⟩ := Front.adds_any cwd new o1 hne o2 hp
    obtain ⟨st, t, r1, r2⟩ := any_runs (u := u) hU o3 new hf
    rw [hn1] at r1
    obtain ⟨d', c1, _⟩ := closeShards_safe (fun j => (t.servers j).shard) x.shards.length (fun j hj => by
      obtain ⟨_, _, _, h, _⟩ := shards r1 r2 j (by rw [← o3.nsh]; exact hj)
      exact h) (match Dmd.close f'.dmds f'.file with
        | some b => ((x.config.writeTo Json.codec d).set .fnm (Fnames.write f'.fnames)).set .dmd b
        | none => (x.config.writeTo Json.codec d).set .fnm (Fnames.write f'.fnames))
    exact ⟨d', .run a1 r1 r2 c1⟩
  · rintro ⟨e1, e2, e3, e4⟩
    rename_i rs front st t
    have hne : x.front.fnames ≠ [] ∨ new = [] := by
      by_cases h1 : x.front.fnames = []
      · by_cases h2 : new = []
        · exact .inr h2
        · rw [Front.adds_empty cwd h1 h2] at e1; cases e1
      · exact .inl h1
    obtain ⟨f', gs, a1, a2, a3, a4, a5, a6, a7⟩ := Front.adds_any cwd new o1 hne o2 hp
    rw [a1] at e1
    injection e1 with e1
    injection e1 with e1 e1'
    subst e1 e1'
    have hsh := shards e2 e3
    have hcl : Dmd.close f'.dmds f'.file = some (D ++ (startRecords D ++ gs).flatMap Dmd.encode) := a3.close
    simp only [Indexer.close, hcl] at e4
    obtain ⟨d2, c1, c2, c3, c4, c5⟩ := closeShards_safe (fun j => (t.servers j).shard) x.shards.length (fun j hj => by
      obtain ⟨_, _, _, h, _⟩ := hsh j (by rw [← o3.nsh]; exact hj)
      exact h) (((x.config.writeTo Json.codec d).set .fnm (Fnames.write f'.fnames)).set .dmd (D ++ (startRecords D ++ gs).flatMap Dmd.encode))
    rw [c1] at e4
    injection e4 with e4
    subst e4
    refine ⟨hne, ?_, ⟨gs, f'.fnames, a2, a4, a5, a6, a7, ?_, ?_⟩, ?_⟩
    · rw [c2]; simp [Dir.set, Config.writeTo]
    · rw [c3]; simp [Dir.set]
    · rw [c4]; simp [Dir.set]
    · intro j hj
      obtain ⟨s, s1, s2, s3, s4, s5⟩ := hsh j hj
      obtain ⟨z, z1, z2, z3, z4, z5⟩ := c5 j (by rw [o3.nsh]; exact hj)
      refine ⟨s, _, z, s1, s2, z1, z2, z3, z4, s4.trans (z5.mono ?_)⟩
      rintro k ⟨p, p1, p2⟩
      false_or_by_contra
      rename_i hk
      rw [s4.same k hk] at p1
      exact p2 (s5 p (List.mem_of_getElem? p1))

end Dupi
