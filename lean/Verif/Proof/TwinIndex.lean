import Verif.Proof.TwinSession
/-! # The index two indexers leave -/

namespace Dupi
open Spec

theorem refresh_params (u : Uni) (x : Indexer) (d : Dir) : (x.refresh d).params u = x.params u := by
  simp [Indexer.params, Indexer.refresh]

theorem refresh_length (x : Indexer) (d : Dir) : (x.refresh d).shards.length = x.shards.length := by simp [Indexer.refresh]

/-- what two indexers leave in the directory of an index that held `docs`: the first one added `A`, the second one `B` -/
structure TwinRep (u : Uni) (J : CfgCodec) (c : Config) (d : Dir) (docs A B : List Document) : Prop where
  cfg : d .cfg = some (J.enc c ++ [10])
  front : ∃ t0 tA tB fs gA gB, ((∃ f0, MetaRep t0 f0 docs) ∧ (∀ i cs, Fnames.Comps t0 i cs → Fnames.Comps tA i cs) ∧ (B = [] → tB = t0)) ∧ d .fnm = some (Fnames.write tB) ∧ d .dmd = some ((Dmd.zeroFields :: (fs ++ gA ++ gB)).flatMap Dmd.encode) ∧
    fs.length = docs.length ∧ MetaRep tA (fs ++ gA) (docs ++ A) ∧ MetaRep tB (fs ++ gB) (docs ++ B)
  sh : ∀ j, j < c.numShards.toNat → ∃ (ps : List Poster) (f : Bytes), d (.pos j) = some f ∧ d (.iix j) = some (ps.flatMap ShardIndexer.iixEntry) ∧
    ps.length = 65536 ∧ (∀ p ∈ ps, -(2 ^ 63) ≤ p.head ∧ p.head < 2 ^ 63) ∧
    ∀ (o : Nat) p, ps[o]? = some p → p.total.toNat = (postings (shardPosts u c j 1 (docs ++ B)) o).length ∧
      Delivers f (Posts.new p.head) (twinRead (postings (shardPosts u c j 1 docs) o) (postings (shardPosts u c j 1 (docs ++ A)) o)
        (postings (shardPosts u c j 1 (docs ++ B)) o)) true

/-- opening gives the shards as they were closed -/
theorem open_shards_eq {J : CfgCodec} {d : Dir} {x : Indexer} (h : Indexer.open J d = .ok x) :
    (∀ (j : Nat) s, x.shards[j]? = some s → ∃ iix post, d (.iix j) = some iix ∧ d (.pos j) = some post ∧ ShardIndexer.initAppend 65536 ⟨post, iix⟩ = .ok s) ∧
    x.front.file = d .dmd := by
  simp only [Indexer.open, Dir.read, bind, Except.bind, pure, Except.pure] at h
  cases h1 : Config.readFrom J d with
  | error e => simp [h1] at h
  | ok c =>
    simp only [h1] at h
    cases h2 : Indexer.makeShards c with
    | error e => simp [h2] at h
    | ok n =>
      simp only [h2] at h
      cases h3 : Dmd.newAdder (d .dmd) c.docFlushRate with
      | error e => simp [h3] at h
      | ok a =>
        simp only [h3] at h
        cases h4 : d .fnm with
        | none => simp [h4, fail] at h
        | some fnm =>
          simp only [h4] at h
          cases h5 : Fnames.read fnm with
          | error e => simp [h5] at h
          | ok t =>
            simp only [h5] at h
            cases h6 : c.tokenConfig.fromConfig with
            | error e => simp [h6] at h
            | ok _ =>
              simp only [h6] at h
              cases h7 : Indexer.openShards d n 0 with
              | error e => simp [h7] at h
              | ok xs =>
                simp only [h7] at h
                cases h8 : Indexer.makeBlotters c with
                | error e => simp [h8] at h
                | ok bs =>
                  simp only [h8, Except.ok.injEq] at h
                  subst h
                  refine ⟨fun j s hs => ?_, rfl⟩
                  have := openShards_inv n h7 j s hs
                  rwa [Nat.zero_add] at this

theorem Fits.of_right {u : Uni} {c : Config} {docs A B : List Document} (h : Fits u c (docs ++ A ++ B)) : Fits u c (docs ++ B) := by
  obtain ⟨h1, h2, h3⟩ := h
  rw [numBlots_append, numBlots_append] at h3
  simp only [List.length_append] at h1
  refine ⟨by simp only [List.length_append]; omega, Fnames.FewPaths.mono (fun p hp => ?_) h2, by rw [numBlots_append]; omega⟩
  simp only [List.map_append, List.mem_append] at hp ⊢
  exact hp.imp .inl id

section
variable {u : Uni} {J : CfgCodec} {c : Config} {d dA : Dir} {docs : List Document} {cwdA cwdB : Bytes} {A B : List Doc} {x : Indexer}

/-- the shards after the first one has closed -/
theorem twin_first (hU : Usable J c) (h : DirRep u J c d docs) (hf : Fits u c (docs ++ added cwdA A)) (hx : Indexer.open J d = .ok x)
    (hr : IndexerRep u c x docs) (hs : Indexer.Session u J cwdA x A d dA) {j : Nat} (hj : j < c.numShards.toNat) :
    ∃ bs ex ps psA, x.shards[j]? = some ⟨ps, render 0 bs⟩ ∧ ClosedRep 65536 bs ps (postings (shardPosts u c j 1 docs)) ∧
      dA (.pos j) = some (render 0 (bs ++ ex)) ∧ ClosedRep 65536 (bs ++ ex) psA (postings (shardPosts u c j 1 (docs ++ added cwdA A))) := by
  obtain ⟨bs, ps, e1, e2, e3, e4⟩ := h.small hf.left.posts hj
  have hjx : j < x.shards.length := by rw [hr.nsh]; exact hj
  obtain ⟨iix, post, g1, g2, g3⟩ := (open_shards_eq hx).1 j _ (List.getElem?_eq_getElem hjx)
  rw [e2] at g1; injection g1 with g1
  rw [e1] at g2; injection g2 with g2
  rw [← g1, ← g2, e3.reopen e4] at g3
  injection g3 with g3
  have hget : x.shards[j]? = some ⟨ps, render 0 bs⟩ := by rw [List.getElem?_eq_getElem hjx, g3]
  obtain ⟨h1, h2, h3, h4⟩ := hs
  obtain ⟨front, k1, k2⟩ := Front.adds_rep cwdA A hr.front hf.ids hf.paths
  rw [k1] at h1
  injection h1 with h1
  injection h1 with i1 i2
  subst i1 i2
  obtain ⟨n1, _⟩ := session_shards hU hr cwdA A hf h2 h3 hj
  rw [List.getD_eq_getElem?_getD, hget, Option.getD_some] at n1
  have hon : ShardOn bs 65536 ⟨ps, render 0 bs⟩ (postings (shardPosts u c j 1 docs)) :=
    ⟨rfl, e3.wf, e3.owner, e3.len, fun o p hp => ⟨(e3.rep o p hp).1, by rw [(e3.rep o p hp).2]; decide⟩⟩
  have e : shardPosts u c j 1 (docs ++ added cwdA A) = shardPosts u c j 1 docs ++ shardPosts u c j (docs.length + 1) (added cwdA A) := by
    rw [shardPosts_append, Nat.add_comm]
  have hids := hf.ids
  obtain ⟨y, ex, m1, m2, _⟩ := ShardOn.addAll (shardPosts u c j (docs.length + 1) (added cwdA A)) hon (shardPosts_bucket u c j _ _) (by
    intro b
    rw [← e]
    apply postings_shardPosts_length u c j hj
    omega)
  rw [← e] at m2
  rw [m1] at n1
  injection n1 with n1
  obtain ⟨hfile, hwf, how, hn, hp⟩ := m2
  obtain ⟨psA, bs', q1, q2, ex2, q3, _⟩ := flushInd_exact (postings (shardPosts u c j 1 (docs ++ added cwdA A))) y.ind [] (bs ++ ex) hwf (by simpa [hn] using how) (by simpa using hp) (by simp)
  have hclose : y.close = .ok ⟨render 0 bs', psA.flatMap ShardIndexer.iixEntry⟩ := by
    simp [ShardIndexer.close, hfile, q1, bind, Except.bind, pure, Except.pure]
  obtain ⟨fs, hi, _⟩ := k2
  unfold Indexer.close at h4
  rw [Dmd.close_inv hi, hr.nsh] at h4
  obtain ⟨fl, s1, s2, _⟩ := (closeShards_spec _ _ h4).1 j hj
  rw [← n1, hclose] at s1
  injection s1 with s1
  refine ⟨bs, ex ++ ex2, ps, psA, hget, e3, ?_, ?_⟩
  · rw [s2, ← s1, q3, List.append_assoc]
  · rw [← List.append_assoc, ← q3]
    simpa [hn] using q2

theorem front_adds_comps (cwd : Bytes) (new : List Doc) : ∀ {x y : Front} {docs : List Document} {rs : List Front.Req}, FrontRep x docs →
    (docs ++ added cwd new).length + 1 < 2 ^ 32 → FewPaths ((docs ++ added cwd new).map fun s => s.path) →
    x.adds cwd new = .ok (rs, y) → ∀ i cs, Fnames.Comps x.fnames i cs → Fnames.Comps y.fnames i cs := by
  induction new with
  | nil =>
    intro x y docs rs _ _ _ h i cs hc
    simp only [Front.adds, Except.ok.injEq, Prod.mk.injEq] at h
    rw [← h.2]; exact hc
  | cons doc new ih =>
    intro x y docs rs h h1 h2 ha i cs hc
    have e : docs ++ added cwd (doc :: new) = (docs ++ added cwd [doc]) ++ added cwd new := by simp [added]
    rw [e] at h1 h2
    have l1 : (docs ++ added cwd [doc]).length = docs.length + 1 := by simp [added]
    have h1' := h1
    rw [List.length_append, l1] at h1'
    obtain ⟨id, x1, g1, g2, _⟩ := Front.add_rep h cwd doc (by omega) (Fnames.FewPaths.mono (fun p hp => by rw [List.map_append]; exact List.mem_append_left _ hp) h2)
    simp only [Front.adds, g1, bind, Except.bind, pure, Except.pure] at ha
    cases hq : x1.adds cwd new with
    | error e => simp [hq] at ha
    | ok r =>
      obtain ⟨rs2, y2⟩ := r
      simp only [hq, Except.ok.injEq, Prod.mk.injEq] at ha
      rw [← ha.2]
      refine ih g2 h1 h2 hq i cs ?_
      obtain ⟨fs, _, hm⟩ := h
      have h3 : FewPaths ((docs ++ added cwd [doc]).map fun s => s.path) := Fnames.FewPaths.mono (fun p hp => by rw [List.map_append]; exact List.mem_append_left _ hp) h2
      rw [added_paths] at h3
      obtain ⟨ids, t', k1, _, _, _, _, _, _, k5, _⟩ := Fnames.addAll_spec cwd [doc.path] hm.wf hm.names hm.onPaths h3
      have : x1.fnames = t' := by
        simp only [Front.add, bind, Except.bind, pure, Except.pure] at g1
        cases hp : Fnames.addPath cwd x.fnames doc.path with
        | error e => simp [hp] at g1
        | ok r =>
          simp only [hp, Except.ok.injEq, Prod.mk.injEq] at g1
          simp only [Fnames.addAll, hp, bind, Except.bind, pure, Except.pure, Except.ok.injEq, Prod.mk.injEq] at k1
          rw [← g1.2, k1.2]
      rw [this]
      exact k5 i cs hc

/-- the file of records -/
theorem twin_records (h : DirRep u J c d docs) (hx : Indexer.open J d = .ok x) (hr : IndexerRep u c x docs) {new : List Doc} {cwd : Bytes}
    (hf : Fits u c (docs ++ added cwd new)) :
    ∃ fs, d .dmd = some ((Dmd.zeroFields :: fs).flatMap Dmd.encode) ∧ fs.length = docs.length ∧ ∀ a : Bytes, ∃ y g w,
      x.front.adds cwd new = .ok (reqs (docs.length + 1) new, y) ∧
      (⟨x.front.fnames, x.front.dmds, some ((Dmd.zeroFields :: fs).flatMap Dmd.encode ++ a)⟩ : Front).adds cwd new =
        .ok (reqs (docs.length + 1) new, ⟨y.fnames, y.dmds, w⟩) ∧
      Dmd.close y.dmds w = some ((Dmd.zeroFields :: fs).flatMap Dmd.encode ++ a ++ g.flatMap Dmd.encode) ∧
      Dmd.close y.dmds y.file = some ((Dmd.zeroFields :: (fs ++ g)).flatMap Dmd.encode) ∧
      MetaRep y.fnames (fs ++ g) (docs ++ added cwd new) ∧ (∀ i cs, Fnames.Comps x.front.fnames i cs → Fnames.Comps y.fnames i cs) ∧
      (new = [] → y.fnames = x.front.fnames) := by
  obtain ⟨t, fs, k1, k2, k3⟩ := h.front
  refine ⟨fs, k2, k3.len, fun a => ?_⟩
  have hfile := (open_shards_eq hx).2
  rw [k2] at hfile
  obtain ⟨y, m1, fs', m2, m3⟩ := Front.adds_rep cwd new hr.front hf.ids hf.paths
  have hfr : x.front = ⟨x.front.fnames, x.front.dmds, some ((Dmd.zeroFields :: fs).flatMap Dmd.encode ++ [])⟩ := by
    rw [List.append_nil, ← hfile]
  have hcomps := front_adds_comps cwd new hr.front hf.ids hf.paths m1
  have hnil : new = [] → y.fnames = x.front.fnames := by
    intro hn
    subst hn
    simp only [Front.adds, Except.ok.injEq, Prod.mk.injEq] at m1
    rw [m1.2]
  rw [hfr] at m1
  obtain ⟨w, w1, w2⟩ := front_adds_insert cwd new _ a _ _ _ m1
  rw [List.append_nil] at w2
  obtain ⟨w', v1, v2⟩ := dmd_close_insert y.dmds ((Dmd.zeroFields :: fs).flatMap Dmd.encode) a w
  have hc := Dmd.close_inv m2
  rw [w1, v1] at hc
  injection hc with hc
  obtain ⟨g, g1, g2⟩ := encode_split _ _ _ hc
  have g1 : fs' = fs ++ g := by injection g1
  refine ⟨y, g, _, by rw [hfr]; exact m1, w2, by rw [v2, g2], ?_, ?_, hcomps, hnil⟩
  · rw [w1, v1, hc, g1]
  · rw [← g1]; exact m3

end

/-- the shards of the second one -/
theorem twin_second {u : Uni} {J : CfgCodec} {c : Config} {d dA : Dir} {docs : List Document} {cwdA : Bytes} {A : List Doc} {x : Indexer}
    (hU : Usable J c) (h : DirRep u J c d docs) {B : List Document} (hf : Fits u c (docs ++ added cwdA A ++ B)) (hx : Indexer.open J d = .ok x)
    (hr : IndexerRep u c x docs) (hs : Indexer.Session u J cwdA x A d dA) {j : Nat} (hj : j < c.numShards.toNat) :
    ∃ (y : ShardIndexer) (ps : List Poster) (f : Bytes), ((x.refresh dA).shards.getD j ⟨[], []⟩).addAll (shardPosts u c j (docs.length + 1) B) = .ok y ∧
      y.close = .ok ⟨f, ps.flatMap ShardIndexer.iixEntry⟩ ∧ ps.length = 65536 ∧ (∀ p ∈ ps, -(2 ^ 63) ≤ p.head ∧ p.head < 2 ^ 63) ∧
      ∀ (o : Nat) (p : Poster), ps[o]? = some p → p.total.toNat = (postings (shardPosts u c j 1 (docs ++ B)) o).length ∧
        Delivers f (Posts.new p.head) (twinRead (postings (shardPosts u c j 1 docs) o) (postings (shardPosts u c j 1 (docs ++ added cwdA A)) o)
          (postings (shardPosts u c j 1 (docs ++ B)) o)) true := by
  obtain ⟨bs, ex, ps, psA, h1, h2, h3, h4⟩ := twin_first hU h hf.left hx hr hs hj
  have hsh : (x.refresh dA).shards.getD j ⟨[], []⟩ = ⟨ps, render 0 (bs ++ ex)⟩ := by
    simp [Indexer.refresh, List.getD_eq_getElem?_getD, h1, h3]
  rw [hsh]
  have e : shardPosts u c j 1 (docs ++ B) = shardPosts u c j 1 docs ++ shardPosts u c j (docs.length + 1) B := by
    rw [shardPosts_append, Nat.add_comm]
  have hids := hf.of_right.ids
  obtain ⟨y, N, k1, k2, k3, k4⟩ := (h2.twin ex).addAll (shardPosts u c j (docs.length + 1) B) (shardPosts_bucket u c j _ _) (by
    intro b
    rw [← e]
    apply postings_shardPosts_length u c j hj
    omega)
  rw [← e] at k2
  obtain ⟨ps', f, M, g1, g2, g3, g4, g5⟩ := k2.close
  have h0 : scost ⟨ps, render 0 (bs ++ ex)⟩ = (render 0 (bs ++ ex)).length := by
    have : ∀ l : List Poster, (∀ p ∈ l, p.posts = []) → (l.map pcost).sum = 0 := by
      intro l
      induction l with
      | nil => intro _; rfl
      | cons p l ih => intro hl; simp [ih (fun q hq => hl q (by simp [hq])), pcost, hl p (by simp)]
    simp only [scost]
    rw [this ps, Nat.add_zero]
    intro p hp
    obtain ⟨i, hi, rfl⟩ := List.getElem_of_mem hp
    exact (h2.rep i _ (List.getElem?_eq_getElem hi)).2
  have h63 : f.length < 2 ^ 63 := by
    have a1 := h4.size
    have a2 := shardPosts_length u c j (docs ++ added cwdA A) 1
    have a3 := shardPosts_length u c j B (docs.length + 1)
    have a4 := hf.posts
    rw [numBlots_append] at a4
    rw [h0] at k4
    omega
  refine ⟨y, ps', f, k1, g1, g3.len, ?_, fun o p hp => ⟨(g3.rep o p hp).1.total, ?_⟩⟩
  · intro p hp
    obtain ⟨i, hi, rfl⟩ := List.getElem_of_mem hp
    have hrp := (g3.rep i _ (List.getElem?_eq_getElem hi)).1
    rw [hrp.head]
    cases ho : ownOf i (place 0 bs ++ foreign 65536 (place (sizes bs) ex) ++ N ++ M) with
    | nil => simp only [firstPos]; omega
    | cons a r =>
      have hm : a ∈ place 0 bs ++ foreign 65536 (place (sizes bs) ex) ++ N ++ M := (mem_ownOf.mp (by rw [ho]; simp : a ∈ ownOf i _)).1
      have := g3.laid.inside a hm
      have hb := a.link_bounds
      simp only [firstPos]
      simp only at this
      omega
  · rw [List.append_assoc] at g3
    exact TShardRep.delivers h2 h4 (k3.trans g2) g3 g4 h63 hp

section
variable {u : Uni} {J : CfgCodec} {c : Config} {d : Dir} {docs : List Document} {cwdA cwdB : Bytes} {A B : List Doc}
  (hU : Usable J c) (h : DirRep u J c d docs) (hf : Fits u c (docs ++ added cwdA A ++ added cwdB B))

include hU h hf in
/-- **what the second one leaves** -/
theorem Twin.rep {d' : Dir} (ht : Indexer.Twin u J cwdA A cwdB B d d') : TwinRep u J c d' docs (added cwdA A) (added cwdB B) := by
  obtain ⟨hx, hsA, hsB⟩ := ht
  rename_i x dA
  obtain ⟨x', hx', hr⟩ := open_rep (u := u) hU h hf.left.left
  rw [hx] at hx'; injection hx' with hx'; subst hx'
  have hA := Session.rep hU hr cwdA A hf.left (.inr h.cfg) hsA
  obtain ⟨fs, m1, m2, m3⟩ := twin_records h hx hr hf.left
  obtain ⟨yA, gA, _, a1, _, _, a4, a5, a6, _⟩ := m3 []
  have hdA : dA .dmd = some ((Dmd.zeroFields :: (fs ++ gA)).flatMap Dmd.encode) := by
    obtain ⟨h1, h2, h3, h4⟩ := hsA
    rw [a1] at h1
    injection h1 with h1
    injection h1 with i1 i2
    subst i1 i2
    unfold Indexer.close at h4
    rw [a4] at h4
    rw [(closeShards_spec _ _ h4).2 .dmd (fun j _ => ⟨nofun, nofun⟩)]
    simp [Dir.set]
  obtain ⟨fs2, n1, n2, n3⟩ := twin_records h hx hr hf.of_right
  have hfs : fs2 = fs := by
    rw [n1] at m1
    injection m1 with m1
    obtain ⟨r, q1, q2⟩ := encode_split (Dmd.zeroFields :: fs2) (Dmd.zeroFields :: fs) [] (by rw [List.append_nil]; exact m1)
    have : fs = fs2 ++ r := by injection q1
    have hl := congrArg List.length this
    rw [List.length_append] at hl
    rw [this, List.length_eq_zero_iff.mp (by omega : r.length = 0), List.append_nil]
  subst hfs
  obtain ⟨yB, gB, w, b1, b2, b3, b4, b5, _, b7⟩ := n3 (gA.flatMap Dmd.encode)
  have hsplit : (Dmd.zeroFields :: (fs2 ++ gA)).flatMap Dmd.encode = (Dmd.zeroFields :: fs2).flatMap Dmd.encode ++ gA.flatMap Dmd.encode := by
    rw [← List.cons_append, List.flatMap_append]
  obtain ⟨h1, h2, h3, h4⟩ := hsB
  rename_i rs front k t
  have hfront : (x.refresh dA).front = ⟨x.front.fnames, x.front.dmds, some ((Dmd.zeroFields :: fs2).flatMap Dmd.encode ++ gA.flatMap Dmd.encode)⟩ := by
    simp only [Indexer.refresh]; rw [hdA, hsplit]
  rw [hfront, b2] at h1
  injection h1 with h1
  injection h1 with i1 i2
  subst i1 i2
  rw [refresh_params] at h2
  have hT : Takes u c docs.length (added cwdB B) (fun j => (x.refresh dA).shards.getD j ⟨[], []⟩) := by
    intro j hj
    obtain ⟨y, _, _, hy, _⟩ := twin_second hU h hf hx hr hsA hj
    exact ⟨y, hy⟩
  have hsh := fun j hj => sessionS_shards hU hr cwdB B hf.of_right _ hT h2 h3 (j := j) hj
  unfold Indexer.close at h4
  rw [b3, refresh_length, hr.nsh] at h4
  obtain ⟨c1, c2⟩ := closeShards_spec _ _ h4
  have hcfg : (x.refresh dA).config = c := hr.cfg
  rw [hcfg] at c2
  refine ⟨?_, ⟨x.front.fnames, yA.fnames, yB.fnames, fs2, gA, gB, ⟨?_, a6, fun hB => b7 (by simpa [added] using hB)⟩, ?_, ?_, n2, a5, b5⟩, fun j hj => ?_⟩
  · rw [c2 .cfg (fun j _ => ⟨nofun, nofun⟩)]
    have := writeTo_cfg (J := J) (c := c) (d := dA) (.inr hA.cfg)
    simpa [Dir.set] using this
  · obtain ⟨f0, _, q⟩ := hr.front
    exact ⟨f0, q⟩
  · rw [c2 .fnm (fun j _ => ⟨nofun, nofun⟩)]; simp [Dir.set]
  · rw [c2 .dmd (fun j _ => ⟨nofun, nofun⟩)]
    simp only [Dir.set, if_true]
    rw [← hsplit, ← List.flatMap_append, List.cons_append]
  · obtain ⟨y, ps, f, e1, e2, e3, e4, e5⟩ := twin_second hU h hf hx hr hsA hj
    obtain ⟨fl, s1, s2, s3⟩ := c1 j hj
    have := (hsh j hj).symm.trans e1
    injection this with this
    rw [this, e2] at s1
    injection s1 with s1
    exact ⟨ps, f, by rw [s2, ← s1], by rw [s3, ← s1], e3, e4, e5⟩

theorem closeShards_total (sh : Nat → ShardIndexer) (n : Nat) (d : Dir) (h : ∀ j, j < n → ∃ f, (sh j).close = .ok f) :
    ∃ d', Indexer.closeShards sh n d = .ok d' := by
  induction n with
  | zero => exact ⟨d, rfl⟩
  | succ n ih =>
    obtain ⟨d1, h1⟩ := ih (fun j hj => h j (by omega))
    obtain ⟨f, hf⟩ := h n (by omega)
    exact ⟨(d1.set (.pos n) f.post).set (.iix n) f.iix, by simp only [Indexer.closeShards, h1, hf, bind, Except.bind, pure, Except.pure]⟩

include hU h hf in
/-- there are such executions -/
theorem Twin.exists : ∃ d', Indexer.Twin u J cwdA A cwdB B d d' := by
  obtain ⟨x, hx, hr⟩ := open_rep (u := u) hU h hf.left.left
  obtain ⟨dA, hsA⟩ := Session.exists hU hr cwdA A hf.left (d := d) (.inr h.cfg)
  obtain ⟨fs, m1, m2, m3⟩ := twin_records h hx hr hf.left
  obtain ⟨yA, gA, _, a1, _, _, a4, a5, a6, _⟩ := m3 []
  have hdA : dA .dmd = some ((Dmd.zeroFields :: (fs ++ gA)).flatMap Dmd.encode) := by
    obtain ⟨h1, h2, h3, h4⟩ := hsA
    rw [a1] at h1
    injection h1 with h1
    injection h1 with i1 i2
    subst i1 i2
    unfold Indexer.close at h4
    rw [a4] at h4
    rw [(closeShards_spec _ _ h4).2 .dmd (fun j _ => ⟨nofun, nofun⟩)]
    simp [Dir.set]
  obtain ⟨fs2, n1, n2, n3⟩ := twin_records h hx hr hf.of_right
  have hfs : (Dmd.zeroFields :: fs2).flatMap Dmd.encode = (Dmd.zeroFields :: fs).flatMap Dmd.encode := by
    rw [n1] at m1
    injection m1
  obtain ⟨yB, gB, w, b1, b2, b3, b4, b5, _, b7⟩ := n3 (gA.flatMap Dmd.encode)
  have hfront : (x.refresh dA).front = ⟨x.front.fnames, x.front.dmds, some ((Dmd.zeroFields :: fs2).flatMap Dmd.encode ++ gA.flatMap Dmd.encode)⟩ := by
    simp only [Indexer.refresh]
    rw [hdA, hfs, ← List.cons_append, List.flatMap_append]
  have hT : Takes u c docs.length (added cwdB B) (fun j => (x.refresh dA).shards.getD j ⟨[], []⟩) := by
    intro j hj
    obtain ⟨y, _, _, hy, _⟩ := twin_second hU h hf hx hr hsA hj
    exact ⟨y, hy⟩
  obtain ⟨k, t, s1, s2⟩ := sessionS_runs hU hr cwdB B hf.of_right _ hT
  have hsh := fun j hj => sessionS_shards hU hr cwdB B hf.of_right _ hT s1 s2 (j := j) hj
  obtain ⟨d', hd'⟩ := closeShards_total (fun j => (t.servers j).shard) c.numShards.toNat
    ((((x.refresh dA).config.writeTo J dA).set .fnm (Fnames.write yB.fnames)).set .dmd ((Dmd.zeroFields :: fs2).flatMap Dmd.encode ++ gA.flatMap Dmd.encode ++ gB.flatMap Dmd.encode)) (by
    intro j hj
    obtain ⟨y, ps, f, e1, e2, _⟩ := twin_second hU h hf hx hr hsA hj
    have := (hsh j hj).symm.trans e1
    injection this with this
    exact ⟨_, by rw [this]; exact e2⟩)
  refine ⟨d', .run hx hsA (.run (by rw [hfront]; exact b2) (by rw [refresh_params]; exact s1) s2 ?_)⟩
  unfold Indexer.close
  rw [b3, refresh_length, hr.nsh]
  exact hd'

end
end Dupi
