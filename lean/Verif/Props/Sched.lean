import Verif.Proof.Indexer
/-! # C18 – C20: the goroutines of an indexing session -/

namespace Dupi.Props
open Spec

/-- An indexer that was just opened: by creating the index, or on the directory left by any history.
`docs` are the documents in the index, `d` its directory. -/
inductive Opened (u : Uni) (J : CfgCodec) (c : Config) : List Document → Indexer → Dir → Prop where
  | create {x : Indexer} : Indexer.create c = .ok x → Opened u J c [] x Dir.empty
  | append {h : Sessions} {d : Dir} {x : Indexer} : History u J c h d → Indexer.open J d = .ok x → Opened u J c (documents h) x d

theorem Opened.rep {u : Uni} {J : CfgCodec} {c : Config} {docs : List Document} {x : Indexer} {d : Dir} (hU : Usable J c)
    (h : Opened u J c docs x d) (hf : Fits u c docs) : IndexerRep u c x docs ∧ CfgOk J c d := by
  cases h with
  | create h =>
    obtain ⟨y, g1, g2⟩ := create_rep (u := u) hU
    have := h.symm.trans g1; injection this with this; subst this
    exact ⟨g2, .inl rfl⟩
  | append h1 h2 =>
    have hr := History.rep hU h1 hf
    obtain ⟨y, g1, g2⟩ := open_rep hU hr hf
    have := h2.symm.trans g1; injection this with this; subst this
    exact ⟨g2, .inr hr.cfg⟩

/-- the posts of the document of a request for shard `j` -/
def batch (u : Uni) (c : Config) (j : Nat) (r : Front.Req) : List Post :=
  ((blotsOf u c r.2.2).filter fun x => x.toNat % c.numShards.toNat = j).map fun x => Post.make r.1 (x / UInt32.ofNat c.numShards.toNat)

theorem outPosts_batch (u : Uni) (c : Config) (r : Front.Req) (j : Nat) (hj : j < c.numShards.toNat) :
    outPosts u c r.1 r.2.2 j = batch u c j r := by
  simp only [outPosts, route, batch, List.length_replicate, List.getD_eq_getElem?_getD, List.getElem?_map, List.getElem?_range hj,
    List.getElem?_replicate, hj, if_true, Option.map_some, Option.getD_some, List.nil_append]

/-- the request for a document -/
def reqOf (id : Nat) (d : Doc) : Front.Req := (UInt32.ofNat id, d.start, d.dat.getD [])

theorem reqs_take (new : List Doc) (m : Nat) : ∀ i, reqs i (new.take m) = (reqs i new).take m := by
  intro i
  apply List.ext_getElem?
  intro k
  rw [List.getElem?_take, reqs_getElem, reqs_getElem, List.getElem?_take]
  split <;> simp

/-- **C18.** Take any open indexer, any further documents, any reachable state of the goroutines, under
any schedule and with any number of shatterers.  The documents get the ids following those in the
index.  What a shard has received so far is the batches of the first `m` documents, in order, for some
`m`; a batch consists of the posts of that document for the shard, all of them. -/
theorem C18_order {u : Uni} {J : CfgCodec} {c : Config} (hU : Usable J c) {docs : List Document} {x : Indexer} {d : Dir}
    (hx : Opened u J c docs x d) (cwd : Bytes) (new : List Doc) (hf : Fits u c (docs ++ added cwd new)) :
    ∃ rs front, x.front.adds cwd new = .ok (rs, front) ∧
      rs.length = new.length ∧ (∀ k doc, new[k]? = some doc → rs[k]? = some (reqOf (docs.length + 1 + k) doc)) ∧
      ∀ k t, Sched.Steps (x.params u) k (x.start rs) t → ∀ j, j < c.numShards.toNat →
        ∃ m, m ≤ new.length ∧ (t.servers j).log = (rs.take m).map (batch u c j) := by
  obtain ⟨hr, _⟩ := hx.rep hU hf.left
  obtain ⟨front, g1, _⟩ := Front.adds_rep cwd new hr.front hf.ids hf.paths
  refine ⟨_, front, g1, reqs_length _ _, ?_, ?_⟩
  · intro k doc hk; rw [reqs_getElem, hk]; rfl
  · intro k t ht j hj
    have hi := sessionEnv_inv hU hr cwd new hf ht
    obtain ⟨m, h1, h2⟩ := hi.log (j := j) (by show j < x.shards.length; rw [hr.nsh]; exact hj)
    have hb := sessionEnv_base hU hr cwd new hf
    rw [hb, show (sessionEnv hU hr cwd new hf).docs.length = new.length from reqs_length _ _] at h2
    by_cases hm : docs.length ≤ m
    · refine ⟨m - docs.length, by omega, ?_⟩
      have := sessionEnv_batches hU hr cwd new hf (m - docs.length) j (by omega)
      rw [show docs.length + (m - docs.length) = m by omega] at this
      rw [h1, this, ← reqs_take]
      exact List.map_congr_left fun r _ => outPosts_batch u c r j hj
    · refine ⟨0, by omega, ?_⟩
      rw [h1]
      simp only [Sched.Env.batches, hb]
      rw [show m - docs.length = 0 by omega]; rfl

/-- every post of a batch carries the id of its document -/
theorem C18_batch_docid (u : Uni) (c : Config) (j : Nat) (r : Front.Req) : ∀ p ∈ batch u c j r, p.docid = r.1 := by
  intro p hp
  simp only [batch, List.mem_map] at hp
  obtain ⟨x, _, rfl⟩ := hp
  exact (C01_split_make _ _).2.1

/-- hence the ids of the posts received by a shard never decrease -/
theorem C18_monotone {u : Uni} {J : CfgCodec} {c : Config} (hU : Usable J c) {docs : List Document} {x : Indexer} {d : Dir}
    (hx : Opened u J c docs x d) (cwd : Bytes) (new : List Doc) (hf : Fits u c (docs ++ added cwd new)) {rs : List Front.Req} {front : Front}
    (hrs : x.front.adds cwd new = .ok (rs, front)) {k : Nat} {t : Sched.St Blotter ShardIndexer (UInt32 × Bytes) Post}
    (ht : Sched.Steps (x.params u) k (x.start rs) t) {j : Nat} (hj : j < c.numShards.toNat) :
    ((t.servers j).log.flatten.map Post.docid).Pairwise (· ≤ ·) := by
  obtain ⟨rs', front', g1, g2, g3, g4⟩ := C18_order hU hx cwd new hf
  rw [hrs] at g1; injection g1 with g1; injection g1 with e1 e2; subst e1 e2
  obtain ⟨m, hm, hl⟩ := g4 k t ht j hj
  rw [hl]
  have hids := hf.ids
  simp only [List.length_append, added, List.length_map] at hids
  have key : ∀ m, m ≤ rs.length → (((rs.take m).map (batch u c j)).flatten.map Post.docid).Pairwise (· ≤ ·) ∧
      ∀ v ∈ ((rs.take m).map (batch u c j)).flatten.map Post.docid, v.toNat ≤ docs.length + m := by
    intro m
    induction m with
    | zero => intro _; simp
    | succ m ih =>
      intro hm
      obtain ⟨i1, i2⟩ := ih (by omega)
      have hlt : m < rs.length := by omega
      rw [List.take_add_one, List.getElem?_eq_getElem hlt]
      simp only [Option.toList_some, List.map_append, List.flatten_append, List.map_cons, List.map_nil, List.flatten_cons, List.flatten_nil,
        List.append_nil]
      have hr : rs[m].1.toNat = docs.length + 1 + m := by
        have := g3 m new[m] (List.getElem?_eq_getElem (by omega))
        rw [List.getElem?_eq_getElem hlt, Option.some.injEq] at this
        rw [this]
        simp only [reqOf, UInt32.toNat_ofNat']; omega
      have hb : ∀ v ∈ (batch u c j rs[m]).map Post.docid, v = rs[m].1 := by
        intro v hv
        obtain ⟨p, hp, rfl⟩ := List.mem_map.mp hv
        exact C18_batch_docid u c j _ p hp
      refine ⟨List.pairwise_append.mpr ⟨i1, ?_, ?_⟩, ?_⟩
      · rw [List.pairwise_iff_forall_sublist]
        intro a b hab
        have h1 := hab.subset (List.mem_cons_self ..)
        have h2 := hab.subset (List.mem_cons_of_mem _ (List.mem_cons_self ..))
        rw [hb a h1, hb b h2]
        exact UInt32.le_refl _
      · intro a ha b hb'
        rw [hb b hb', UInt32.le_iff_toNat_le, hr]
        have := i2 a ha
        omega
      · intro v hv
        rcases List.mem_append.mp hv with hv | hv
        · have := i2 v hv; omega
        · rw [hb v hv, hr]; omega
  exact (key m (by omega)).1

/-- **C19.** No reachable state is a deadlock or a crash, and there is a bound on the number of steps
of any schedule: so every schedule runs to the end of the session. -/
theorem C19_live {u : Uni} {J : CfgCodec} {c : Config} (hU : Usable J c) {docs : List Document} {x : Indexer} {d : Dir}
    (hx : Opened u J c docs x d) (cwd : Bytes) (new : List Doc) (hf : Fits u c (docs ++ added cwd new)) :
    ∃ rs front, x.front.adds cwd new = .ok (rs, front) ∧
      (∀ k t, Sched.Steps (x.params u) k (x.start rs) t →
        ¬ Sched.Crashes (x.params u) t ∧ (Sched.Final (x.params u) t ∨ ∃ t', Sched.Step (x.params u) t t')) ∧
      ∃ B, ∀ k t, Sched.Steps (x.params u) k (x.start rs) t → k ≤ B := by
  obtain ⟨hr, _⟩ := hx.rep hU hf.left
  obtain ⟨front, g1, _⟩ := Front.adds_rep cwd new hr.front hf.ids hf.paths
  refine ⟨_, front, g1, ?_, Sched.measure (x.params u) (x.start (reqs (docs.length + 1) new)), ?_⟩
  · intro k t ht
    have hi := sessionEnv_inv hU hr cwd new hf ht
    have hs := sessionEnv_serves hU hr cwd new hf
    refine ⟨hi.noCrash hs, hi.progress hs ?_⟩
    show 0 < x.blotters.length
    rw [hr.nw]; have := hU.shatters; omega
  · intro k t ht
    have := ht.bound
    omega

/-- one shatterer at least is needed: with none, adding a document blocks for ever -/
theorem C19_needs_shatterer {W S D α : Type} (P : Sched.Params W S D α) (h : P.nw = 0) (b0 : Nat → W) (s0 : Nat → S) (last : UInt32)
    (docs : List (UInt32 × D)) (hd : docs ≠ []) : ¬ ∃ t, Sched.Step P (Sched.init b0 s0 last docs) t := by
  rintro ⟨t, ht⟩
  cases docs with
  | nil => exact hd rfl
  | cons x xs =>
    cases ht <;> simp_all [Sched.init, Sched.Client.closed]

/-! ### C20 -/

/-- the posts of a document to all the shards, one shard after the other -/
def serveEach : List ShardIndexer → List (List Post) → M (List ShardIndexer)
  | s :: ss, o :: os => do
    let s ← s.addAll (o.map serveBucket)
    let ss ← serveEach ss os
    return s :: ss
  | ss, _ => .ok ss

/-- indexing without goroutines: one document after the other, with one blotter -/
def seqAdd (u : Uni) (c : Config) : Blotter → List ShardIndexer → List Front.Req → M (List ShardIndexer)
  | _, sh, [] => .ok sh
  | b, sh, r :: rs => do
    let (b, out) ← Shatter.compute u c.seqLen sh.length b r.1 r.2.1 r.2.2
    let sh ← serveEach sh out
    seqAdd u c b sh rs

/-- a whole session without goroutines -/
def seqSession (u : Uni) (J : CfgCodec) (cwd : Bytes) (x : Indexer) (docs : List Doc) (d : Dir) : M Dir := do
  let (rs, front) ← x.front.adds cwd docs
  let b ← Blotter.fromConfig x.config.blotConfig
  let sh ← seqAdd u x.config b x.shards rs
  Indexer.close J x.config front sh.length (fun j => sh.getD j ⟨[], []⟩) d

theorem serveEach_eq : ∀ (ss ss' : List ShardIndexer) (os : List (List Post)), ss.length = os.length → ss'.length = ss.length →
    (∀ (j : Nat) s o s', ss[j]? = some s → os[j]? = some o → ss'[j]? = some s' → s.addAll (o.map serveBucket) = .ok s') →
    serveEach ss os = .ok ss' := by
  intro ss
  induction ss with
  | nil =>
    intro ss' os _ h2 _
    have : ss' = [] := List.length_eq_zero_iff.mp (by simpa using h2)
    subst this; cases os <;> rfl
  | cons s ss ih =>
    intro ss' os h1 h2 h
    cases os with
    | nil => simp at h1
    | cons o os =>
      cases ss' with
      | nil => simp at h2
      | cons s' ss' =>
        have h0 := h 0 s o s' rfl rfl rfl
        have := ih ss' os (by simpa using h1) (by simpa using h2) (fun j a b c' ha hb hc => h (j + 1) a b c' (by simpa) (by simpa) (by simpa))
        simp only [serveEach, h0, this, bind, Except.bind, pure, Except.pure]

theorem seqAdd_eq {u : Uni} {J : CfgCodec} {c : Config} (hU : Usable J c) (rs : List Front.Req) :
    ∀ (b : Blotter) (l : List UInt32) (sh sh' : List ShardIndexer), BlotRepL b c.blotConfig.seqLen.toNat c.blotConfig.interleave.toNat l →
      sh.length = c.numShards.toNat → sh'.length = sh.length →
      (∀ (j : Nat) s s', sh[j]? = some s → sh'[j]? = some s' →
        s.addAll ((rs.map fun r => outPosts u c r.1 r.2.2 j).flatten.map serveBucket) = .ok s') →
      seqAdd u c b sh rs = .ok sh' := by
  have hn0 := hU.shards
  have hn1 := hU.shardsSmall
  induction rs with
  | nil =>
    intro b l sh sh' _ _ hlen h
    have : sh = sh' := by
      apply List.ext_getElem (by rw [hlen])
      intro i h1 h2
      have := h i _ _ (List.getElem?_eq_getElem h1) (List.getElem?_eq_getElem h2)
      simpa [ShardIndexer.addAll] using this
    rw [this]; rfl
  | cons r rs ih =>
    intro b l sh sh' hb hlen hlen' h
    obtain ⟨b', g1, g2⟩ := compute_spec u _ _ sh.length (by omega) (by omega) b l hb r.1 r.2.1 r.2.2
    have hmid : ∀ j, (hj : j < sh.length) → ∃ y, sh[j].addAll ((outPosts u c r.1 r.2.2 j).map serveBucket) = .ok y ∧
        y.addAll ((rs.map fun r => outPosts u c r.1 r.2.2 j).flatten.map serveBucket) = .ok (sh'[j]'(by omega)) := by
      intro j hj
      have := h j _ _ (List.getElem?_eq_getElem hj) (List.getElem?_eq_getElem (by omega))
      rw [List.map_cons, List.flatten_cons, List.map_append, ShardIndexer.addAll_append] at this
      cases he : sh[j].addAll ((outPosts u c r.1 r.2.2 j).map serveBucket) with
      | error e => rw [he] at this; cases this
      | ok y => rw [he] at this; exact ⟨y, rfl, this⟩
    let mid : List ShardIndexer := (List.range sh.length).map fun j =>
      match (sh.getD j ⟨[], []⟩).addAll ((outPosts u c r.1 r.2.2 j).map serveBucket) with
      | .ok y => y
      | .error _ => ⟨[], []⟩
    have hmidlen : mid.length = sh.length := by simp [mid]
    have hmidget : ∀ j, (hj : j < sh.length) → ∃ y, mid[j]? = some y ∧ sh[j].addAll ((outPosts u c r.1 r.2.2 j).map serveBucket) = .ok y ∧
        y.addAll ((rs.map fun r => outPosts u c r.1 r.2.2 j).flatten.map serveBucket) = .ok (sh'[j]'(by omega)) := by
      intro j hj
      obtain ⟨y, k1, k2⟩ := hmid j hj
      refine ⟨y, ?_, k1, k2⟩
      simp only [mid, List.getElem?_map, List.getElem?_range hj, Option.map_some, List.getD_eq_getElem?_getD, List.getElem?_eq_getElem hj,
        Option.getD_some, k1]
    have hse : serveEach sh (route r.1 (List.replicate sh.length []) (blots c.blotConfig.seqLen.toNat c.blotConfig.interleave.toNat
        ((words u r.2.2).map (wordHash u)))) = .ok mid := by
      apply serveEach_eq _ _ _ (by simp [route_length]) hmidlen
      intro j s o s' hs ho hs'
      obtain ⟨hj, rfl⟩ := List.getElem?_eq_some_iff.mp hs
      obtain ⟨y, k0, k1, _⟩ := hmidget j hj
      rw [k0] at hs'; injection hs' with hs'; subst hs'
      have : outPosts u c r.1 r.2.2 j = o := by
        simp only [outPosts, blotsOf_eq, ← hlen, List.getD_eq_getElem?_getD, ho, Option.getD_some]
      rw [← this]; exact k1
    have := ih b' _ mid sh' g2 (by rw [hmidlen]; exact hlen) (by rw [hmidlen]; exact hlen') (fun j s s' hs hs' => by
      have hj : j < sh.length := by rw [← hmidlen]; exact (List.getElem?_eq_some_iff.mp hs).1
      obtain ⟨y, k0, _, k2⟩ := hmidget j hj
      rw [k0] at hs; injection hs with hs; subst hs
      rw [List.getElem?_eq_getElem (by omega)] at hs'; injection hs' with hs'; subst hs'
      exact k2)
    simp only [seqAdd, hU.cons.seqLen_eq, g1, hse, bind, Except.bind, this]

/-- **C20.** However the goroutines are scheduled, however many shatterers there are: the directory
after the session is the one the sequential execution leaves. -/
theorem C20_sequential {u : Uni} {J : CfgCodec} {c : Config} (hU : Usable J c) {docs : List Document} {x : Indexer} {d d' : Dir}
    (hx : Opened u J c docs x d) (cwd : Bytes) (new : List Doc) (hf : Fits u c (docs ++ added cwd new)) :
    Indexer.Session u J cwd x new d d' ↔ seqSession u J cwd x new d = .ok d' := by
  obtain ⟨hr, hcfg⟩ := hx.rep hU hf.left
  obtain ⟨front, g1, g2⟩ := Front.adds_rep cwd new hr.front hf.ids hf.paths
  obtain ⟨b, hb, hbr⟩ := fromConfig_repL c.blotConfig hU.cons.seq hU.cons.inter
  have hn1 := hU.shardsSmall
  -- any complete execution leaves the shards of the sequential one
  have key : ∀ k t, Sched.Steps (x.params u) k (x.start (reqs (docs.length + 1) new)) t → t.client = .done →
      seqSession u J cwd x new d = Indexer.close J x.config front x.shards.length (fun j => (t.servers j).shard) d := by
    intro k t ht hc
    have hseq : seqAdd u c b x.shards (reqs (docs.length + 1) new) = .ok ((List.range x.shards.length).map fun j => (t.servers j).shard) := by
      refine seqAdd_eq hU (reqs (docs.length + 1) new) b [] x.shards _ hbr hr.nsh (by simp) ?_
      intro j s s' hs hs'
      obtain ⟨hj, rfl⟩ := List.getElem?_eq_some_iff.mp hs
      have hjn : j < c.numShards.toNat := by rw [← hr.nsh]; exact hj
      rw [List.getElem?_map, List.getElem?_range hj] at hs'
      simp only [Option.map_some, Option.some.injEq] at hs'
      subst hs'
      have := (session_shards hU hr cwd new hf ht hc hjn).1
      rw [List.getD_eq_getElem?_getD, List.getElem?_eq_getElem hj, Option.getD_some] at this
      rw [reqs_posts u c j hjn (by omega) cwd]; exact this
    simp only [seqSession, g1, hr.cfg, hb, hseq, bind, Except.bind, List.length_map, List.length_range]
    unfold Indexer.close
    simp only
    apply closeShards_congr
    intro j hj
    simp [List.getD_eq_getElem?_getD, hj]
  constructor
  · rintro ⟨h1, h2, h3, h4⟩
    rw [g1] at h1; injection h1 with h1; injection h1 with e1 e2; subst e1 e2
    rw [key _ _ h2 h3, h4]
  · intro h
    obtain ⟨k, t, h1, h2⟩ := session_runs hU hr cwd new hf
    rw [key k t h1 h2] at h
    exact .run g1 h1 h2 h

/-- two executions of a session end in the same directory -/
theorem C20_schedule {u : Uni} {J : CfgCodec} {c : Config} (hU : Usable J c) {docs : List Document} {x : Indexer} {d d1 d2 : Dir}
    (hx : Opened u J c docs x d) (cwd : Bytes) (new : List Doc) (hf : Fits u c (docs ++ added cwd new))
    (h1 : Indexer.Session u J cwd x new d d1) (h2 : Indexer.Session u J cwd x new d d2) : d1 = d2 := by
  have := ((C20_sequential hU hx cwd new hf).mp h1).symm.trans ((C20_sequential hU hx cwd new hf).mp h2)
  injection this

/-- equal directories, but for the configuration file -/
def SameData (d d' : Dir) : Prop := ∀ f, f ≠ .cfg → d' f = d f

theorem SameData.set {d d' : Dir} (h : SameData d d') (f : File) (b : Bytes) : SameData (d.set f b) (d'.set f b) := by
  intro g hg; simp only [Dir.set]; split
  · rfl
  · exact h g hg

theorem SameData.writeTo {d d' : Dir} (h : SameData d d') (J : CfgCodec) (c c' : Config) : SameData (c.writeTo J d) (c'.writeTo J d') := by
  intro g hg; simp only [Config.writeTo, Dir.set, hg, if_false]; exact h g hg

theorem SameData.closeShards {sh : Nat → ShardIndexer} {n : Nat} : ∀ {d d' e e' : Dir}, SameData d d' →
    Indexer.closeShards sh n d = .ok e → Indexer.closeShards sh n d' = .ok e' → SameData e e' := by
  induction n with
  | zero => intro d d' e e' h h1 h2; cases h1; cases h2; exact h
  | succ n ih =>
    intro d d' e e' h h1 h2
    simp only [Indexer.closeShards, bind, Except.bind] at h1 h2
    cases ha : Indexer.closeShards sh n d with
    | error => simp [ha] at h1
    | ok a =>
      cases ha' : Indexer.closeShards sh n d' with
      | error => simp [ha'] at h2
      | ok a' =>
        cases hc : (sh n).close with
        | error => simp [ha, hc] at h1
        | ok f =>
          simp only [ha, ha', hc, pure, Except.pure, Except.ok.injEq] at h1 h2
          subst h1 h2
          exact ((ih h ha ha').set _ _).set _ _

theorem SameData.close {J : CfgCodec} {c c' : Config} {front : Front} {sh : Nat → ShardIndexer} {n : Nat} {d d' e e' : Dir} (h : SameData d d')
    (h1 : Indexer.close J c front n sh d = .ok e) (h2 : Indexer.close J c' front n sh d' = .ok e') : SameData e e' := by
  unfold Indexer.close at h1 h2
  simp only at h1 h2
  have h0 := (h.writeTo J c c').set .fnm (Fnames.write front.fnames)
  cases hd : Dmd.close front.dmds front.file with
  | none => rw [hd] at h1 h2; exact h0.closeShards h1 h2
  | some b => rw [hd] at h1 h2; exact (h0.set .dmd b).closeShards h1 h2

/-- indexers that differ in the number of shatterers -/
structure SameIndexer (m : Int) (x x' : Indexer) : Prop where
  cfg : x'.config = { x.config with numShatters := m }
  front : x'.front = x.front
  shards : x'.shards = x.shards

theorem seqAdd_cfg (u : Uni) (c : Config) (m : Int) (rs : List Front.Req) : ∀ b sh, seqAdd u { c with numShatters := m } b sh rs = seqAdd u c b sh rs := by
  induction rs with
  | nil => intro b sh; rfl
  | cons r rs ih => intro b sh; simp only [seqAdd, ih]

theorem SameIndexer.seqSession {u : Uni} {J : CfgCodec} {cwd : Bytes} {docs : List Doc} {m : Int} {x x' : Indexer} {d d' e e' : Dir}
    (h : SameIndexer m x x') (hd : SameData d d') (h1 : seqSession u J cwd x docs d = .ok e) (h2 : seqSession u J cwd x' docs d' = .ok e') :
    SameData e e' := by
  unfold Props.seqSession at h1 h2
  rw [h.front, h.shards, h.cfg] at h2
  simp only [bind, Except.bind, seqAdd_cfg] at h1 h2
  cases ha : x.front.adds cwd docs with
  | error => simp [ha] at h1
  | ok r =>
    obtain ⟨rs, front⟩ := r
    simp only [ha] at h1 h2
    cases hb : Blotter.fromConfig x.config.blotConfig with
    | error => simp [hb] at h1
    | ok b =>
      simp only [hb] at h1 h2
      cases hc : seqAdd u x.config b x.shards rs with
      | error => simp [hc] at h1
      | ok sh =>
        simp only [hc] at h1 h2
        exact hd.close h1 h2

theorem openShards_same {d d' : Dir} (h : SameData d d') (n : Nat) : ∀ i, Indexer.openShards d' n i = Indexer.openShards d n i := by
  induction n with
  | zero => intro i; rfl
  | succ n ih => intro i; simp only [Indexer.openShards, Dir.read, h (.iix i) nofun, h (.pos i) nofun, ih]

theorem History.ne_nil {u : Uni} {J : CfgCodec} {c : Config} {h : Sessions} {d : Dir} (hh : History u J c h d) : h ≠ [] := by
  cases hh <;> simp

theorem fits_cfg {u : Uni} {c : Config} {docs : List Document} (m : Int) (h : Fits u c docs) : Fits u { c with numShatters := m } docs :=
  ⟨h.ids, h.paths, h.posts⟩

/-- **C20** for whole histories: two executions of the same sessions, under any schedules, one with
another number of shatterers, leave the same index (the number itself is recorded in cfg.json). -/
theorem C20_history {u : Uni} {J : CfgCodec} {c : Config} {m : Int} (hU : Usable J c) (hU' : Usable J { c with numShatters := m })
    {h : Sessions} {d d' : Dir} (hf : Fits u c (documents h)) (h1 : History u J c h d) (h2 : History u J { c with numShatters := m } h d') :
    SameData d d' := by
  induction h1 generalizing d' with
  | create g1 g2 =>
    rename_i x cwd docs e
    have hf : Fits u c ([] ++ added cwd docs) := by simpa [documents] using hf
    generalize hh : [(cwd, docs)] = hs at h2
    cases h2 with
    | create k1 k2 =>
      simp only [List.cons.injEq, Prod.mk.injEq, and_true] at hh
      obtain ⟨rfl, rfl⟩ := hh
      rename_i x'
      have e1 := (C20_sequential hU (.create g1) cwd docs hf).mp g2
      have e2 := (C20_sequential hU' (.create k1) cwd docs (fits_cfg m hf)).mp k2
      refine SameIndexer.seqSession (m := m) ⟨?_, ?_, ?_⟩ (fun _ _ => rfl) e1 e2
      all_goals
        simp only [Indexer.create, Indexer.makeShards, bind, Except.bind, pure, Except.pure] at g1 k1
        rw [if_neg (by have := hU.shards; omega)] at g1
        rw [if_neg (by have := hU.shards; omega)] at k1
        obtain ⟨bs, b1, -⟩ := makeBlotters_rep hU
        obtain ⟨bs', b1', -⟩ := makeBlotters_rep hU'
        obtain ⟨a, a1, -⟩ := Dmd.newAdder_none c.docFlushRate hU.flush
        simp only [TokenConfig.fromConfig, hU.cons.tok, if_true, a1, b1, b1', Except.ok.injEq] at g1 k1
        subst g1 k1
        rfl
    | append k1 k2 k3 =>
      have := congrArg List.length hh
      have hne := List.length_pos_iff.mpr (History.ne_nil k1)
      simp only [List.length_append, List.length_cons, List.length_nil] at this; omega
  | append g1 g2 g3 ih =>
    rename_i hist d0 d1 x cwd docs
    rw [documents_snoc] at hf
    generalize hh : hist ++ [(cwd, docs)] = hs at h2
    cases h2 with
    | create k1 k2 =>
      have := congrArg List.length hh
      have hne := List.length_pos_iff.mpr (History.ne_nil g1)
      simp only [List.length_append, List.length_cons, List.length_nil] at this; omega
    | append k1 k2 k3 =>
      obtain ⟨e1, e2⟩ := List.append_inj' hh rfl
      subst e1
      simp only [List.cons.injEq, Prod.mk.injEq, and_true] at e2
      obtain ⟨rfl, rfl⟩ := e2
      rename_i d0' x'
      have hs := ih hf.left k1
      have s1 := (C20_sequential hU (.append g1 g2) cwd docs hf).mp g3
      have s2 := (C20_sequential hU' (.append k1 k2) cwd docs (fits_cfg m hf)).mp k3
      have r1 := History.rep hU g1 hf.left
      have r2 := History.rep hU' k1 (fits_cfg m hf.left)
      refine SameIndexer.seqSession (m := m) ⟨?_, ?_, ?_⟩ hs s1 s2
      all_goals
        simp only [Indexer.open, Config.readFrom, Dir.read, r1.cfg, r2.cfg, hU.codec, hU'.codec, hU.check, hU'.check, Indexer.makeShards, bind, Except.bind, pure, Except.pure,
          hs .dmd nofun, hs .fnm nofun, openShards_same hs] at g2 k2
        rw [if_neg (by have := hU.shards; omega)] at g2
        rw [if_neg (by have := hU.shards; omega)] at k2
        obtain ⟨bs, b1, -⟩ := makeBlotters_rep hU
        obtain ⟨bs', b1', -⟩ := makeBlotters_rep hU'
        obtain ⟨t, fs, f1, f2, f3⟩ := r1.front
        have hids := hf.left.ids
        obtain ⟨a, a1, -⟩ := Dmd.newAdder_some c.docFlushRate hU.flush (Dmd.zeroFields :: fs) (by simp) (by simp [f3.len]; omega)
        have hsz := f3.small hf.left.paths
        obtain ⟨t', m1, -⟩ := Fnames.read_write t f3.wf (by omega) f3.names
        obtain ⟨xs, n1, -⟩ := openShards_rep (d := d0) (fun j => postings (shardPosts u c j 1 (documents hist))) c.numShards.toNat 0
          (fun j _ hj => r1.small hf.left.posts (by omega))
        simp only [TokenConfig.fromConfig, hU.cons.tok, if_true, f1, f2, a1, m1, n1, b1, b1', Except.ok.injEq] at g2 k2
        subst g2 k2
        rfl

/-- Non-vacuity: what `NewConfig` makes is usable, for any number of shards, and indexes of any documents that are not too
many or too long can be made and appended to. -/
theorem C18_nonvacuous (u : Uni) (cwd root : Bytes) (n : Nat) (h0 : 0 < n) (h1 : n < 2 ^ 32) (s : Bytes × List Doc) (h : Sessions)
    (g1 : (documents (s :: h)).length + 1 < 2 ^ 32) (g2 : FewPaths ((documents (s :: h)).map fun s => s.path))
    (g3 : 23 * ((documents (s :: h)).map fun s => s.dat.length).sum < 2 ^ 63) :
    ∃ J c, Config.new cwd root n 10 = .ok c ∧ Usable J c ∧ Fits u c (documents (s :: h)) ∧
      (∃ d, History u J c (s :: h) d) ∧
      (∀ d, History u J c (s :: h) d → ∃ x, Opened u J c (documents (s :: h)) x d) := by
  obtain ⟨c, hc⟩ : ∃ c, Config.new cwd root n 10 = .ok c := ⟨_, rfl⟩
  have e : c = ⟨absPath cwd root, 10, n, 2, 16384, ⟨wordsSimple⟩, ⟨10, 1⟩⟩ := by
    have : Config.new cwd root n 10 = .ok ⟨absPath cwd root, 10, n, 2, 16384, ⟨wordsSimple⟩, ⟨10, 1⟩⟩ := rfl
    rw [this] at hc; injection hc with hc; exact hc.symm
  have hU : Usable ⟨fun _ => [], fun _ => .ok c⟩ c := by
    subst e
    exact ⟨⟨by simp, by simp, by simp, rfl⟩, by simp, by simp; omega, by simp; omega, by simp, by simp, rfl⟩
  have hf : Fits u c (documents (s :: h)) := ⟨g1, g2, by have := numBlots_le u c (documents (s :: h)); omega⟩
  refine ⟨_, c, hc, hU, hf, History.exists hU s.1 s.2 h hf, ?_⟩
  intro d hd
  obtain ⟨x, k1, -⟩ := open_rep hU (History.rep hU hd hf) hf
  exact ⟨x, .append hd k1⟩

end Dupi.Props
