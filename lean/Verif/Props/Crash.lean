import Verif.Proof.Crash
import Verif.Proof.JsonTame
import Verif.Props.ConfigFile
import Verif.Props.Query
/-! # Sessions that do not end: C30, C31 -/

namespace Dupi.Props
open Spec

theorem create_ready {J : CfgCodec} {u : Uni} {c : Config} (hU : Usable J c) {x : Indexer} (hx : Indexer.create c = .ok x) :
    IndexerRep u c x [] ∧ Ready x Dir.empty (Dir.empty.run (Indexer.createOps c.numShards.toNat 0)) := by
  obtain ⟨y, g1, g2⟩ := create_rep (u := u) hU
  have hxy := hx.symm.trans g1
  injection hxy with hxy
  subst hxy
  refine ⟨g2, ?_, ?_, ?_⟩
  · simp only [Indexer.create, bind, Except.bind, pure, Except.pure] at hx
    revert hx
    cases Indexer.makeShards c with
    | error e => intro h; simp at h
    | ok n =>
      cases c.tokenConfig.fromConfig with
      | error e => intro h; simp at h
      | ok _ =>
        cases Dmd.newAdder none c.docFlushRate with
        | error e => intro h; simp at h
        | ok a =>
          cases Indexer.makeBlotters c with
          | error e => intro h; simp at h
          | ok bs =>
            intro h
            simp only [Except.ok.injEq] at h
            rw [← h]; rfl
  · intro j s hs
    have hj : j < c.numShards.toNat := by rw [← g2.nsh]; exact (List.getElem?_eq_some_iff.mp hs).1
    rw [(createOps_shard _ 0 j (by omega) (by omega) _).1]
    have hn : 0 ≤ c.numShards := by have := hU.shards; omega
    simp only [Indexer.create, Indexer.makeShards, bind, Except.bind, pure, Except.pure, if_neg (show ¬ c.numShards < 0 by omega)] at hx
    revert hx
    cases c.tokenConfig.fromConfig with
    | error e => intro h; simp at h
    | ok _ =>
      cases Dmd.newAdder none c.docFlushRate with
      | error e => intro h; simp at h
      | ok a =>
        cases Indexer.makeBlotters c with
        | error e => intro h; simp at h
        | ok bs =>
          intro h
          simp only [Except.ok.injEq] at h
          rw [← h] at hs
          simp only [List.getElem?_replicate] at hs
          split at hs
          · injection hs with hs; rw [← hs]; rfl
          · rename_i hnj; exact absurd hj hnj
  · intro f hf
    rw [(createOps_off _ 0 f fun j _ hj => hf j (by rw [g2.nsh]; omega)).run]

section
variable {u : Uni} {J : CfgCodec} {srt : Sorter} {c : Config} (hU : Usable J c)
include hU

/-- **C30**, the operations considered are those of a session: when all of them are done, in any order in
which the goroutines can get them done, the directory is the one a whole session leaves. -/
theorem C30_finished {x : Indexer} (hx : Indexer.create c = .ok x) {cwd : Bytes} {docs : List Doc} {tr : Trace} {d' : Dir}
    (hr : Indexer.Run u J cwd x docs Dir.empty (Indexer.createOps c.numShards.toNat 0) tr d') {cd : Dir}
    (hc : Trace.Finished c.numShards.toNat tr Dir.empty cd) : cd = d' ∧ History u J c [(cwd, docs)] cd := by
  obtain ⟨h1, h2⟩ := create_ready (u := u) hU hx
  rw [← h1.nsh] at hc
  have := hr.rep.finished h2 hc
  subst this
  exact ⟨rfl, .create hx hr.session⟩

/-- **C30.**  An index is created, documents are added and it is closed, the goroutines being scheduled in any
way; the process dies at any point (`Crashed`: each goroutine's file operations are done up to some point, the
last one perhaps in part).  If not everything had been done, `OpenIndex` returns an error. -/
theorem C30_all_or_nothing (hJ : ∀ b, Tame (J.dec b)) {x : Indexer} (hx : Indexer.create c = .ok x) {cwd : Bytes} {docs : List Doc}
    (hf : Fits u c (added cwd docs)) {tr : Trace} {d' : Dir}
    (hr : Indexer.Run u J cwd x docs Dir.empty (Indexer.createOps c.numShards.toNat 0) tr d') {cd : Dir}
    (hc : Trace.Crashed c.numShards.toNat tr Dir.empty cd) :
    Trace.Finished c.numShards.toNat tr Dir.empty cd ∨ ∃ e, Index.open J srt cd = fail e := by
  obtain ⟨h1, h2⟩ := create_ready (u := u) hU hx
  have hf' : Fits u c ([] ++ added cwd docs) := by simpa using hf
  have hd' : DirRep u J c d' ([] ++ added cwd docs) := Session.rep hU h1 cwd docs hf' (.inl rfl) hr.session
  have hn0 := hU.shards
  have R := hr.rep
  obtain ⟨rs, front, e1, e2, e3, e4, e5, e6⟩ := R.ex
  have hns := h1.nsh
  have hsetup := R.setup
  -- the table of paths
  obtain ⟨front', a1, a2⟩ := Front.adds_rep cwd docs h1.front hf'.ids hf'.paths
  rw [e1] at a1; injection a1 with a1; injection a1 with _ a1; subst a1
  obtain ⟨fs, _, hm⟩ := a2
  have hmsz := hm.small hf'.paths
  -- files before the session
  have s0 : ∀ f, f = .cfg ∨ f = .fnm → Dir.empty.run tr.setup f = none := by
    intro f hf
    rw [hsetup, (createOps_off _ 0 f fun j _ _ => by rcases hf with rfl | rfl <;> exact ⟨nofun, nofun⟩).run]
    rfl
  have s1 : ∀ j, j < c.numShards.toNat → Dir.empty.run tr.setup (.iix j) = some (ShardIndexer.initCreateIix ShardIndexer.nBlots) := by
    intro j hj
    rw [hsetup, (createOps_shard _ 0 j (by omega) (by omega) _).2]
  have noFnm : ∀ d : Dir, d .fnm = none → Errs (Index.open J srt d) := by
    intro d hd
    exact open_errs srt (fun b _ => hJ b) (.inl fun b hb => by rw [hd] at hb; simp at hb)
  have wOff : ∀ {a s ops}, Cut tr.adds a → (∀ j, j < c.numShards.toNat → Cut (tr.serve j) (s j)) →
      Interleave (Trace.workers c.numShards.toNat a s) ops → ∀ f, (f = .cfg ∨ f = .fnm ∨ ∃ j, f = .iix j) → Off f ops := by
    intro a s ops ha hs hi f hf
    refine (workers_opsOn hi (ha.on R.adds) fun j hj => (hs j hj).on (R.serve j (by omega))).2.2 f ?_ fun j hj => ?_
    · rcases hf with rfl | rfl | ⟨j, rfl⟩ <;> exact nofun
    · rcases hf with rfl | rfl | ⟨j, rfl⟩ <;> exact nofun
  cases hc with
  | setup hc =>
    refine .inr (noFnm _ ?_)
    rw [(hc.off (f := .fnm) (by rw [hsetup]; exact createOps_off _ 0 _ fun j _ _ => ⟨nofun, nofun⟩)).run]; rfl
  | adding ha hs hi =>
    refine .inr (noFnm _ ?_)
    rw [run_append, (wOff ha hs hi .fnm (.inr (.inl rfl))).run, s0 _ (.inr rfl)]
  | closing hi hcut =>
    rename_i ops cs
    refine .inr ?_
    have wo := wOff (Cut.refl _) (fun j _ => Cut.refl _) hi
    have hclosed : ∀ f, (f = .cfg ∨ f = .fnm) → Dir.empty.run (tr.setup ++ ops ++ cs) f = onFiles none (opsOn f cs) := by
      intro f hf
      rw [run_append, run_append, run_file, (wo f (by rcases hf with h | h <;> simp [h])).run, s0 f hf]
    have hiix : ∀ j, j < c.numShards.toNat → Dir.empty.run (tr.setup ++ ops ++ cs) (.iix j) = some (ShardIndexer.initCreateIix ShardIndexer.nBlots) := by
      intro j hj
      rw [run_append, run_append, (hcut.off (by rw [e3]; exact ((closingOps_files J x.config front).1 j).2)).run,
        (wo (.iix j) (.inr (.inr ⟨j, rfl⟩))).run, s1 j hj]
    rw [e3, Indexer.closingOps, List.append_assoc] at hcut
    have o1 := writeOps_on J x.config
    have o2 := fnames_ops_on front.fnames
    have o3 := dmd_closeOps_on front.dmds front.file
    rcases hcut.append with ⟨hcut1, _⟩ | ⟨cs', rfl, hcut2⟩
    · apply noFnm
      rw [hclosed .fnm (.inr rfl), (hcut1.off (o1.off (g := .fnm) nofun)).opsOn]; rfl
    · have hcfg : Dir.empty.run (tr.setup ++ ops ++ (Config.writeOps J x.config ++ cs')) .cfg = some (J.enc c ++ [10]) := by
        rw [hclosed .cfg (.inl rfl), opsOn_append, o1.opsOn,
          (hcut2.off ((o2.off (g := .cfg) nofun).append (o3.off nofun))).opsOn, List.append_nil, writeTo_ops, h1.cfg]
        simp [writeAt]
      have hrd : Config.readFrom J (Dir.empty.run (tr.setup ++ ops ++ (Config.writeOps J x.config ++ cs'))) = .ok c := by
        simp only [Config.readFrom, Dir.read, hcfg, hU.codec, hU.check, bind, Except.bind, pure, Except.pure]
      have hfnm : Dir.empty.run (tr.setup ++ ops ++ (Config.writeOps J x.config ++ cs')) .fnm = onFiles none (opsOn .fnm cs') := by
        rw [hclosed .fnm (.inr rfl), opsOn_append, (o1.off (g := .fnm) nofun).opsOn, List.nil_append]
      obtain ⟨t', m1, _⟩ := Fnames.read_write front.fnames hm.wf (by omega) hm.names
      have full : Dir.empty.run (tr.setup ++ ops ++ (Config.writeOps J x.config ++ cs')) .fnm = some (Fnames.write front.fnames) →
          Errs (Index.open J srt (Dir.empty.run (tr.setup ++ ops ++ (Config.writeOps J x.config ++ cs')))) := by
        intro hw
        refine open_errs srt (fun b _ => hJ b) (.inr ⟨fun b hb => ?_, c, hrd, by omega, 0, by omega, fun b hb => ?_⟩)
        · rw [hw] at hb; injection hb with hb; subst hb
          rw [m1]; exact .ok _
        · rw [hiix 0 (by omega)] at hb; injection hb with hb; subst hb
          exact readIix_initial (by decide)
      rcases hcut2.append with ⟨hcut3, _⟩ | ⟨cs'', rfl, hcut4⟩
      · rcases hcut3.rewrite with rfl | ⟨k, k1, _⟩
        · exact noFnm _ (by rw [hfnm]; rfl)
        · rw [(hcut3.on o2).opsOn, k1, writeChunks_flatten] at hfnm
          by_cases hk : k < (Fnames.write front.fnames).length
          · refine open_errs srt (fun b _ => hJ b) (.inl fun b hb => ?_)
            rw [hfnm] at hb; injection hb with hb; subst hb
            exact Fnames.read_trunc _ hm.wf (by omega) hm.names k hk
          · exact full (by rw [hfnm, List.take_of_length_le (by omega)])
      · refine full ?_
        rw [hfnm, opsOn_append, o2.opsOn, (hcut4.off (o3.off (g := .fnm) nofun)).opsOn, List.append_nil, fnames_ops]
  | shards hi hs hi' =>
    rename_i s ops ops'
    by_cases hall : ∀ j, j < c.numShards.toNat → s j = tr.shard j
    · refine .inl ?_
      have : (List.range c.numShards.toNat).map s = (List.range c.numShards.toNat).map tr.shard :=
        List.map_congr_left fun j hj => hall j (List.mem_range.mp hj)
      rw [this] at hi'
      exact .finished hi hi'
    · refine .inr ?_
      obtain ⟨j, hj, hne⟩ : ∃ j, j < c.numShards.toNat ∧ s j ≠ tr.shard j := by
        false_or_by_contra
        rename_i hcon
        exact hall fun j hj => by
          false_or_by_contra
          rename_i hcon'
          exact hcon ⟨j, hj, hcon'⟩
      have wo := wOff (Cut.refl _) (fun j _ => Cut.refl _) hi
      have hsh : ∀ j, j < c.numShards.toNat → OnShard j (s j) := by
        intro j hj
        obtain ⟨ws, ps, w1, _⟩ := R.shard j _ (List.getElem?_eq_getElem (by omega))
        exact (hs j hj).onShard (by rw [w1]; exact closeOps_onShard _ _ _)
      obtain ⟨p1, p2⟩ := shards_opsOn hi' hsh
      obtain ⟨q1, q2, q3, q4⟩ := closingOps_files J x.config front
      have hfile : ∀ f, (f = .cfg ∨ f = .fnm) → Dir.empty.run (tr.setup ++ ops ++ tr.closing ++ ops') f = onFiles none (opsOn f tr.closing) := by
        intro f hf
        rw [run_append, run_append, run_append, (p2 f (fun j _ => by rcases hf with rfl | rfl <;> exact ⟨nofun, nofun⟩)).run, run_file,
          (wo f (by rcases hf with h | h <;> simp [h])).run, s0 f hf]
      have hcfg : Dir.empty.run (tr.setup ++ ops ++ tr.closing ++ ops') .cfg = some (J.enc c ++ [10]) := by
        rw [hfile .cfg (.inl rfl), e3, q2, writeTo_ops, h1.cfg]
        simp [writeAt]
      have hfnm : Dir.empty.run (tr.setup ++ ops ++ tr.closing ++ ops') .fnm = some (Fnames.write front.fnames) := by
        rw [hfile .fnm (.inr rfl), e3, q3, fnames_ops]
      obtain ⟨t', m1, _⟩ := Fnames.read_write front.fnames hm.wf (by omega) hm.names
      refine open_errs srt (fun b _ => hJ b) (.inr ⟨fun b hb => ?_, c, ?_, by omega, j, hj, fun b hb => ?_⟩)
      · rw [hfnm] at hb; injection hb with hb; subst hb
        rw [m1]; exact .ok _
      · simp only [Config.readFrom, Dir.read, hcfg, hU.codec, hU.check, bind, Except.bind, pure, Except.pure]
      · have hiix : Dir.empty.run (tr.setup ++ ops ++ tr.closing ++ ops') (.iix j) =
            onFiles (some (ShardIndexer.initCreateIix ShardIndexer.nBlots)) (opsOn (.iix j) (s j)) := by
          rw [run_append, run_append, run_append, run_file, (p1 j hj).2, e3, ((q1 j).2).run, (wo (.iix j) (.inr (.inr ⟨j, rfl⟩))).run, s1 j hj]
        rw [hiix] at hb
        obtain ⟨ws, ps, w1, w2, w3⟩ := R.shard j _ (List.getElem?_eq_getElem (by omega))
        have hcut := hs j hj
        rw [w1] at hcut hne
        have ontrunc : On (.iix j) (.trunc (.iix j) :: Op.writes (.iix j) 0 (ps.flatMap ShardIndexer.iixChunks)) := by
          intro op h
          rcases List.mem_cons.mp h with rfl | h
          · rfl
          · exact writes_on _ _ _ op h
        have initial : b = ShardIndexer.initCreateIix ShardIndexer.nBlots → Errs (ShardIndex.readIix ShardIndexer.nBlots b) := by
          rintro rfl
          exact readIix_initial (by decide)
        rcases hcut.append with ⟨hcut1, _⟩ | ⟨cs, e, hcut2⟩
        · rw [(hcut1.off ((posOps_on j ws).off (g := .iix j) nofun)).opsOn] at hb
          injection hb with hb
          exact initial hb.symm
        · rw [e, opsOn_append, ((posOps_on j ws).off (g := .iix j) nofun).opsOn, List.nil_append, (hcut2.on ontrunc).opsOn] at hb
          rcases hcut2.rewrite with rfl | ⟨k, k1, k2⟩
          · injection hb with hb
            exact initial hb.symm
          · rw [k1, iixChunks_flatten] at hb
            have k3 := k2 (iixChunks_ne ps) (by intro e'; exact hne (by rw [e, e']))
            rw [iixChunks_flatten] at k3
            obtain ⟨bs, ps', r1, r2, r3, r4⟩ := hd'.small hf'.posts hj
            rw [w3] at r2
            injection r2 with r2
            rw [r2] at hb k3
            injection hb with hb
            subst hb
            have := readIix_prefix bs r4 _ ps' 0 k (fun o p hp => (r3.rep o p hp).1) k3
            rwa [r3.len] at this

/-- **C30**, the other half: if the index can be opened it is the complete one. -/
theorem C30_opened (hJ : ∀ b, Tame (J.dec b)) {x : Indexer} (hx : Indexer.create c = .ok x) {cwd : Bytes} {docs : List Doc}
    (hf : Fits u c (added cwd docs)) {tr : Trace} {d' : Dir}
    (hr : Indexer.Run u J cwd x docs Dir.empty (Indexer.createOps c.numShards.toNat 0) tr d') {cd : Dir}
    (hc : Trace.Crashed c.numShards.toNat tr Dir.empty cd) {y : Index} (hy : Index.open J srt cd = .ok y) :
    cd = d' ∧ History u J c [(cwd, docs)] cd := by
  rcases C30_all_or_nothing (srt := srt) hU hJ hx hf hr hc with h | ⟨e, h⟩
  · exact C30_finished hU hx hr h
  · rw [hy] at h; simp [fail] at h

/-- the theorems above are about something: every session that fits can be run; it can be finished, and a process that dies between `Close` writing
`cfg.json`, `fnm` and `dmd` and its closing the shards leaves a directory that is not that of the session -/
theorem C30_nonvacuous {cwd : Bytes} {docs : List Doc} (hf : Fits u c (added cwd docs)) : ∃ x tr d', Indexer.create c = .ok x ∧
    Indexer.Run u J cwd x docs Dir.empty (Indexer.createOps c.numShards.toNat 0) tr d' ∧
    Trace.Finished c.numShards.toNat tr Dir.empty d' ∧
    ∃ cd, Trace.Crashed c.numShards.toNat tr Dir.empty cd ∧ ¬ Trace.Finished c.numShards.toNat tr Dir.empty cd := by
  obtain ⟨x, g1, g2⟩ := create_rep (u := u) hU
  obtain ⟨tr, d', hr⟩ := Indexer.Run.exists hU g2 cwd docs (by simpa using hf) (d := Dir.empty) (.inl rfl) (Indexer.createOps c.numShards.toNat 0)
  obtain ⟨ops, h1⟩ := Interleave.exists _ (Trace.workers c.numShards.toNat tr.adds tr.serve) rfl
  obtain ⟨ops', h2⟩ := Interleave.exists _ ((List.range c.numShards.toNat).map tr.shard) rfl
  have hfin := Trace.Finished.finished (d := Dir.empty) h1 h2
  have he := (C30_finished hU g1 hr hfin).1
  refine ⟨x, tr, d', g1, hr, he ▸ hfin, _, .closing h1 (Cut.refl _), ?_⟩
  intro hcon
  have hd := (C30_finished hU g1 hr hcon).1
  have hsh := hU.shards
  -- the table of shard 0 is still the one made on creation
  have hd' : DirRep u J c d' ([] ++ added cwd docs) := Session.rep hU g2 cwd docs (by simpa using hf) (.inl rfl) hr.session
  have R := hr.rep
  obtain ⟨rs, front, _, _, e3, _, _, _⟩ := R.ex
  have hiix : Dir.empty.run (tr.setup ++ ops ++ tr.closing) (.iix 0) = some (ShardIndexer.initCreateIix ShardIndexer.nBlots) := by
    rw [run_append, run_append, e3, (((closingOps_files J x.config front).1 0).2).run]
    rw [((workers_opsOn h1 R.adds fun j hj => R.serve j (by rw [g2.nsh]; exact hj)).2.2 (.iix 0) nofun fun j hj => nofun).run, R.setup,
      (createOps_shard _ 0 0 (by omega) (by omega) _).2]
  rw [hd] at hiix
  obtain ⟨bs, ps, r1, r2, r3, r4⟩ := hd'.small (by simpa using hf.posts) (j := 0) (by omega)
  rw [r2] at hiix
  injection hiix with hiix
  have hrd := index_readIix_spec bs r4 _ ps 0 r3.rep
  obtain ⟨e, he⟩ := readIix_initial (n := ShardIndexer.nBlots) (by decide)
  rw [hiix, r3.len] at hrd
  have h65 : ShardIndexer.nBlots = 65536 := rfl
  rw [h65] at he hrd
  rw [he] at hrd
  simp [fail] at hrd

end

/-- **C30**, for the configurations `dupi index` makes and the files it really writes -/
theorem C30_created {u : Uni} {srt : Sorter} {cwd root : Bytes} {n : Int} (h1 : 0 < n) (h2 : n < 2 ^ 32) (h3 : IsText (absPath cwd root))
    {c : Config} (hc : Config.new cwd root n 10 = .ok c) {x : Indexer} (hx : Indexer.create c = .ok x) {docs : List Doc}
    (hf : Fits u c (added cwd docs)) {tr : Trace} {d' : Dir}
    (hr : Indexer.Run u Json.codec cwd x docs Dir.empty (Indexer.createOps n.toNat 0) tr d') {cd : Dir}
    (hcd : Trace.Crashed n.toNat tr Dir.empty cd) :
    (cd = d' ∧ History u Json.codec c [(cwd, docs)] cd) ∨ ∃ e, Index.open Json.codec srt cd = fail e := by
  obtain ⟨c', g1, _, g3, g4⟩ := C48_created cwd root n h1 h2 h3
  rw [hc] at g1
  injection g1 with g1
  subst g1
  subst g3
  rcases C30_all_or_nothing (srt := srt) g4 Json.codec_tame hx hf hr hcd with h | h
  · exact .inl (C30_finished g4 hx hr h)
  · exact .inr h

end Dupi.Props
