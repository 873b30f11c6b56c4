import Verif.Proof.Lost
import Verif.Props.Cut
/-! # C95: adding to an index that lost some of its bytes -/

namespace Dupi.Props
open Spec

/-- The files of an index with configuration `c`. -/
def IsFile (c : Config) : File → Prop
  | .cfg | .fnm | .dmd => True
  | .pos j | .iix j => j < c.numShards.toNat

/-- Two directories with the same index in them. -/
def SameIndex (c : Config) (d d' : Dir) : Prop := ∀ f, IsFile c f → d' f = d f

theorem closeShards_any (sh : Nat → ShardIndexer) (n : Nat) : ∀ {d d1 : Dir} (e : Dir), Indexer.closeShards sh n d = .ok d1 →
    ∃ e1, Indexer.closeShards sh n e = .ok e1 ∧ (∀ j, j < n → e1 (.pos j) = d1 (.pos j) ∧ e1 (.iix j) = d1 (.iix j)) ∧
      ∀ f, e f = d f → e1 f = d1 f := by
  induction n with
  | zero =>
    intro d d1 e h
    injection h with h
    subst h
    exact ⟨e, rfl, fun j hj => by omega, fun f hf => hf⟩
  | succ n ih =>
    intro d d1 e h
    simp only [Indexer.closeShards, bind, Except.bind, pure, Except.pure] at h
    cases h1 : Indexer.closeShards sh n d with
    | error x => rw [h1] at h; cases h
    | ok d2 =>
      rw [h1] at h
      simp only at h
      cases h2 : (sh n).close with
      | error x => rw [h2] at h; cases h
      | ok b =>
        rw [h2] at h
        simp only at h
        injection h with h
        subst h
        obtain ⟨e2, g1, g2, g3⟩ := ih e h1
        refine ⟨(e2.set (.pos n) b.post).set (.iix n) b.iix, by simp only [Indexer.closeShards, g1, h2, bind, Except.bind, pure, Except.pure], ?_, ?_⟩
        · intro j hj
          by_cases hjn : j = n
          · subst hjn; exact ⟨by simp [Dir.set], by simp [Dir.set]⟩
          · obtain ⟨k1, k2⟩ := g2 j (by omega)
            exact ⟨by simp [Dir.set, hjn, k1], by simp [Dir.set, hjn, k2]⟩
        · intro f hf
          have := g3 f hf
          simp only [Dir.set]
          split
          · rfl
          · split
            · rfl
            · exact this

theorem indexOpenShards_congr (srt : Sorter) {d d' : Dir} (n : Nat) : ∀ i, (∀ j, i ≤ j → j < i + n → d' (.pos j) = d (.pos j) ∧ d' (.iix j) = d (.iix j)) →
    Index.openShards srt d' n i = Index.openShards srt d n i := by
  induction n with
  | zero => intro i _; rfl
  | succ n ih =>
    intro i h
    obtain ⟨h1, h2⟩ := h i (Nat.le_refl _) (by omega)
    simp only [Index.openShards, Dir.read, h1, h2, ih (i + 1) (fun j hj hj' => h j (by omega) (by omega))]

theorem indexerOpenShards_congr {d d' : Dir} (n : Nat) : ∀ i, (∀ j, i ≤ j → j < i + n → d' (.pos j) = d (.pos j) ∧ d' (.iix j) = d (.iix j)) →
    Indexer.openShards d' n i = Indexer.openShards d n i := by
  induction n with
  | zero => intro i _; rfl
  | succ n ih =>
    intro i h
    obtain ⟨h1, h2⟩ := h i (Nat.le_refl _) (by omega)
    simp only [Indexer.openShards, Dir.read, h1, h2, ih (i + 1) (fun j hj hj' => h j (by omega) (by omega))]

/-- An index is opened as it is, whatever else is in the directory. -/
theorem SameIndex.opens {J : CfgCodec} {srt : Sorter} {c : Config} {d d' : Dir} (h : SameIndex c d d') (hc : Config.readFrom J d = .ok c) :
    Index.open J srt d' = Index.open J srt d ∧ Indexer.open J d' = Indexer.open J d := by
  have h1 := h .cfg trivial
  have h2 := h .fnm trivial
  have h3 := h .dmd trivial
  have h4 : ∀ j, 0 ≤ j → j < 0 + c.numShards.toNat → d' (.pos j) = d (.pos j) ∧ d' (.iix j) = d (.iix j) :=
    fun j _ hj => ⟨h (.pos j) (by show j < _; omega), h (.iix j) (by show j < _; omega)⟩
  have hc' : Config.readFrom J d' = .ok c := by
    rw [← hc]; unfold Config.readFrom Dir.read; rw [h1]
  constructor
  · unfold Index.open
    rw [hc, hc']
    simp only [bind, Except.bind, Dir.read, h2, h3, indexOpenShards_congr srt _ 0 h4]
  · unfold Indexer.open
    rw [hc, hc']
    simp only [bind, Except.bind, Dir.read, h2, h3, Indexer.makeShards]
    by_cases hn : c.numShards < 0
    · simp only [if_pos hn]
    · simp only [if_neg hn, pure, Except.pure, indexerOpenShards_congr _ 0 h4]

theorem newAdder_any (file : Option Bytes) {fr : Int} (h : 1 ≤ fr) : ∃ a, Dmd.newAdder file fr = .ok a := by
  unfold Dmd.newAdder
  cases file with
  | none => simp only [if_neg (show ¬ fr < 1 by omega)]; exact ⟨_, rfl⟩
  | some b =>
    simp only [if_neg (show ¬ fr < 1 by omega), if_neg (show ¬ fr < 0 by omega)]
    split <;> exact ⟨_, rfl⟩

theorem dirRep_readFrom {u : Uni} {c : Config} {J : CfgCodec} (hU : Usable J c) {d : Dir} {docs : List Document} (h : DirRep u J c d docs) :
    Config.readFrom J d = .ok c := by
  simp only [Config.readFrom, Dir.read, h.cfg, hU.codec, hU.check, bind, Except.bind, pure, Except.pure]

section
variable {u : Uni} {c : Config} (hU : Usable Json.codec c)
include hU

/-- **C95.**  Suppose any files of an index were lost or cut short, and it is then opened for adding documents.  That
fails with an error (no panic, no endless loop), unless every file but the document records is as it was (of the
configuration file the end of line may be missing).  If the document records are as they were too, then what is opened
is what would have been opened before the loss. -/
theorem C95_refused {h : Sessions} {d d' : Dir} (hd : History u Json.codec c h d) (hf : Fits u c (documents h)) (hcut : CutFrom d d') :
    (∃ e, Indexer.open Json.codec d' = fail e) ∨
    (d' .fnm = d .fnm ∧ (∀ j, j < c.numShards.toNat → d' (.pos j) = d (.pos j) ∧ d' (.iix j) = d (.iix j)) ∧
      Config.readFrom Json.codec d' = .ok c ∧
      ∃ x, Indexer.open Json.codec d' = .ok x ∧ (d' .dmd = d .dmd → Indexer.open Json.codec d = .ok x)) := by
  have hr := History.rep hU hd hf
  have hc : Config.readFrom Json.codec d = .ok c := dirRep_readFrom hU hr
  obtain ⟨t, fs, k1, _, k3⟩ := hr.front
  have hsz := k3.small hf.paths
  have hn := hU.shards
  obtain ⟨bs, b1, _⟩ := makeBlotters_rep hU
  obtain ⟨a, ha⟩ := newAdder_any (d' .dmd) hU.flush
  have hopen : ∀ e : Dir, Config.readFrom Json.codec e = .ok c → Indexer.open Json.codec e = (do
      let a ← Dmd.newAdder (e .dmd) c.docFlushRate
      let fnm ← e.read .fnm
      let t ← Fnames.read fnm
      let xs ← Indexer.openShards e c.numShards.toNat 0
      return ⟨c, ⟨t, a, e .dmd⟩, bs, xs⟩) := by
    intro e he
    unfold Indexer.open
    simp only [he, Indexer.makeShards, if_neg (show ¬ c.numShards < 0 by omega), TokenConfig.fromConfig, hU.cons.tok, if_true, b1,
      bind, Except.bind, pure, Except.pure]
  rcases readFrom_cutFrom hcut hc with g | ⟨e, g⟩
  · rw [hc] at g
    rw [hopen d' g, hopen d hc, ha]
    simp only [bind, Except.bind, pure, Except.pure]
    rcases hcut .fnm with hfn | ⟨b, m, q1, q2⟩
    · left
      exact ⟨_, by simp only [Dir.read, hfn]; rfl⟩
    · rw [k1] at q1
      injection q1 with q1
      subst q1
      by_cases hm : m < (Fnames.write t).length
      · obtain ⟨e, he⟩ := Fnames.read_trunc t k3.wf (by omega) k3.names m hm
        left
        exact ⟨e, by simp only [Dir.read, q2, he]⟩
      · rw [List.take_of_length_le (by omega)] at q2
        obtain ⟨t', m1, _⟩ := Fnames.read_write t k3.wf (by omega) k3.names
        rcases openShards_cutFrom hcut (fun j => postings (shardPosts u c j 1 (documents h))) c.numShards.toNat 0
          (fun j _ hj => hr.small hf.posts (by omega)) with ⟨s1, s2⟩ | ⟨_, e, s2⟩
        · right
          refine ⟨q2.trans k1.symm, fun j hj => s1 j (Nat.zero_le _) (by omega), g, ?_⟩
          obtain ⟨xs, n1, _⟩ := openShards_rep (d := d) (fun j => postings (shardPosts u c j 1 (documents h))) c.numShards.toNat 0
            (fun j _ hj => hr.small hf.posts (by omega))
          simp only [Dir.read, q2, k1, m1, s2, n1]
          refine ⟨_, rfl, fun hdm => ?_⟩
          rw [hdm] at ha
          rw [ha, hdm]
        · left
          exact ⟨e, by simp only [Dir.read, q2, m1, s2]⟩
  · left
    exact ⟨e, by unfold Indexer.open; rw [g]; rfl⟩

/-- In that case nothing is wrong afterwards: a session that adds documents leaves an index that is opened, for queries
and for further sessions, as one left by the same sessions with nothing lost. -/
theorem C95_unharmed {h : Sessions} {d d' d'' : Dir} {x : Indexer} {cwd : Bytes} {new : List Doc} (hd : History u Json.codec c h d)
    (hf : Fits u c (documents h)) (hcut : CutFrom d d') (hdm : d' .dmd = d .dmd) (hx : Indexer.open Json.codec d' = .ok x)
    (hs : Indexer.Session u Json.codec cwd x new d' d'') (hf' : Fits u c (documents (h ++ [(cwd, new)]))) :
    ∃ d2, History u Json.codec c (h ++ [(cwd, new)]) d2 ∧ SameIndex c d2 d'' ∧
      (∀ srt, Index.open Json.codec srt d'' = Index.open Json.codec srt d2) ∧ Indexer.open Json.codec d'' = Indexer.open Json.codec d2 := by
  rcases C95_refused hU hd hf hcut with ⟨e, g⟩ | ⟨g1, g2, g3, y, g4, g5⟩
  · rw [hx] at g; cases g
  · rw [hx] at g4
    injection g4 with g4
    subst g4
    have hx2 := g5 hdm
    have hr := History.rep hU hd hf
    obtain ⟨y, o1, o2⟩ := open_rep hU hr hf
    have hxy := hx2.symm.trans o1
    injection hxy with hxy
    subst hxy
    obtain ⟨h1, h2, h3, h4⟩ := hs
    rename_i rs front k t
    have hcfg : x.config.writeTo Json.codec d' .cfg = x.config.writeTo Json.codec d .cfg := by
      rw [o2.cfg]
      rw [writeTo_cfg (.inr hr.cfg)]
      rcases hcut .cfg with hn | ⟨b, m, q1, q2⟩
      · exact writeTo_cfg (.inl hn)
      · rw [hr.cfg] at q1
        injection q1 with q1
        subst q1
        simp only [Config.writeTo, Dir.set, q2, writeAt, if_true, Option.getD_some]
        rw [List.drop_of_length_le (by rw [List.length_take]; omega)]
        simp
    obtain ⟨d2, k1, k2, k3⟩ := closeShards_any _ _ (((x.config.writeTo Json.codec d).set .fnm (Fnames.write front.fnames)) |> fun d =>
      match Dmd.close front.dmds front.file with
      | some b => d.set .dmd b
      | none => d) h4
    have hh : History u Json.codec c (h ++ [(cwd, new)]) d2 := .append hd hx2 (.run h1 h2 h3 k1)
    have hsame : SameIndex c d2 d'' := by
      intro f hf
      have hb : ∀ f, f = .cfg ∨ f = .fnm ∨ f = .dmd → d'' f = d2 f := by
        intro f hf
        symm
        apply k3 f
        rcases hf with rfl | rfl | rfl
        · cases Dmd.close front.dmds front.file <;> simp [Dir.set, hcfg]
        · cases Dmd.close front.dmds front.file <;> simp [Dir.set]
        · cases Dmd.close front.dmds front.file <;> simp [Dir.set, Config.writeTo, hdm]
      cases f with
      | cfg => exact hb _ (.inl rfl)
      | fnm => exact hb _ (.inr (.inl rfl))
      | dmd => exact hb _ (.inr (.inr rfl))
      | pos j => exact ((k2 j (by rw [o2.nsh]; exact hf)).1).symm
      | iix j => exact ((k2 j (by rw [o2.nsh]; exact hf)).2).symm
    have hc2 := dirRep_readFrom hU (History.rep hU hh hf')
    exact ⟨d2, hh, hsame, fun srt => (hsame.opens (srt := srt) hc2).1, (hsame.opens (srt := fun _ => []) hc2).2⟩

/-- How a query shows document number `i` (from 0) after documents `new` were added to an index of `docs` whose records had been
lost from number `k` on: the new documents take the places of the lost ones. -/
def inPlace (docs : List Document) (k : Nat) (new : List Document) : List Document := docs.take k ++ new

/-- Records lost: those of all documents but the first `k`, be it that the file ends there, or (`k = 0`) that there is none. -/
def RecordsLost (d d' : Dir) (k : Nat) : Prop :=
  (∀ f, f ≠ .dmd → d' f = d f) ∧ (d' .dmd = (d .dmd).map (fun b => b.take (Dmd.rcdSize * (k + 1))) ∨ (k = 0 ∧ d' .dmd = none))

omit hU in
theorem RecordsLost.cut {d d' : Dir} {k : Nat} (h : RecordsLost d d' k) : CutFrom d d' := by
  intro f
  by_cases hf : f = .dmd
  · subst hf
    rcases h.2 with e | ⟨_, e⟩
    · rw [e]
      cases d .dmd with
      | none => exact .inl rfl
      | some b => exact .inr ⟨b, _, rfl, rfl⟩
    · exact .inl e
  · rw [h.1 f hf]
    cases d f with
    | none => exact .inl rfl
    | some b => exact .inr ⟨b, b.length, rfl, by simp⟩

omit hU in
theorem encode_take (fs : List Fields) : ∀ k, (fs.flatMap Dmd.encode).take (Dmd.rcdSize * k) = (fs.take k).flatMap Dmd.encode := by
  induction fs with
  | nil => intro k; simp
  | cons f fs ih =>
    intro k
    cases k with
    | zero => simp
    | succ k =>
      have hl : (Dmd.encode f).length = Dmd.rcdSize := by
        have := Dmd.encodeAll_length [f]
        simpa [Dmd.rcdSize] using this
      rw [List.flatMap_cons, List.take_succ_cons, List.flatMap_cons, ← ih k, List.take_append, hl,
        List.take_of_length_le (by rw [hl, Nat.mul_add]; omega), Nat.mul_add, Nat.mul_one, Nat.add_sub_cancel]

/-- **C95 is false of the document records.**  Let an index of `docs` lose the records of all but the first `k` documents.
It can be opened to add documents, and all is well as far as anyone can see; sessions that add `new` run to their end.
But the ids of the lost documents are given again: when `new` has at least as many documents as were lost, the index can
be queried without an error, and `Get` of a blot `b` returns document `i` of those shown precisely if that document has
the blot, or if the document that had number `i` before had it. -/
theorem C95_false {srt : Sorter} (hsrt : IsSorter srt) {h : Sessions} {d d' : Dir} (hd : History u Json.codec c h d) {cwd : Bytes} {new : List Doc}
    (hf : Fits u c (documents h ++ added cwd new)) {k : Nat} (hlost : RecordsLost d d' k) (hk : k ≤ (documents h).length)
    (hn : (documents h).length ≤ k + new.length) :
    ∃ x, Indexer.open Json.codec d' = .ok x ∧ (∃ d'', Indexer.Session u Json.codec cwd x new d' d'') ∧
      ∀ d'', Indexer.Session u Json.codec cwd x new d' d'' → ∃ y q, Index.open Json.codec srt d'' = .ok y ∧ y.startQuery = .ok q ∧
        Dmd.numDocs y.dmd = (inPlace (documents h) k (added cwd new)).length + 1 ∧
        ∀ grow (b : UInt32) fuel, (documents h).length + new.length < fuel → ∃ r, Query.get grow y fuel q ⟨b, none⟩ = .ok r ∧ r.blot = b ∧
          ∀ s, s ∈ r.vis ↔ ∃ (i : Nat) (t : Document), (inPlace (documents h) k (added cwd new))[i]? = some t ∧ s = t.shown ∧
            (hasBlot u c t.dat b.toNat = true ∨ ∃ t', (documents h)[i]? = some t' ∧ hasBlot u c t'.dat b.toNat = true) := by
  have hfl := hf.left
  have hr := History.rep hU hd hfl
  obtain ⟨t, fs, k1, k2, k3⟩ := hr.front
  have hids := hf.ids
  simp only [List.length_append, added, List.length_map] at hids
  have hns := hU.shards
  have hns' := hU.shardsSmall
  obtain ⟨a, g1, g2⟩ : ∃ a, Dmd.newAdder (d' .dmd) c.docFlushRate = .ok a ∧ Dmd.Inv a (d' .dmd) (Dmd.zeroFields :: fs.take k) := by
    rcases hlost.2 with e | ⟨e0, e⟩
    · rw [k2, Option.map_some, encode_take, List.take_succ_cons] at e
      rw [e]
      exact Dmd.newAdder_some c.docFlushRate hU.flush _ (by simp) (by simp [k3.len]; omega)
    · subst e0
      rw [e]
      exact Dmd.newAdder_none c.docFlushRate hU.flush
  obtain ⟨x, hx, h1, h2, h3⟩ := lost_open (d' := d') hU hr hfl k1 k3 hk g1 g2 hlost.1
  have hcfg : CfgOk Json.codec c d' := .inr (by rw [hlost.1 _ (by simp)]; exact hr.cfg)
  refine ⟨x, hx, lost_session_exists hU h1 h2 h3 hk cwd new hf hcfg, fun d'' hs => ?_⟩
  have hl := lost_session hU h1 h2 h3 hk cwd new hf hcfg hs
  have hal : (added cwd new).length = new.length := by simp [added]
  have hroot : Rooted (documents h ++ added cwd new) := by
    have := documents_rooted (h ++ [(cwd, new)])
    rwa [documents_snoc] at this
  obtain ⟨y, y1, y2, y3⟩ := hl.opens hU srt hf hroot hk (by rw [hal]; exact hn)
  obtain ⟨q, q1, _, _, q2⟩ := Query.startQuery_rep hsrt y2 (by omega) (by omega)
  refine ⟨y, q, y1, q1, by rw [y3, inPlace, List.length_append, List.length_take, Nat.min_eq_left hk], fun grow b fuel hfuel => ?_⟩
  obtain ⟨hz, s, rs, p1, p2, p3, p4⟩ := Query.get_route y2 (by omega) (by omega) b q2
  have hj : b.toNat % c.numShards.toNat < c.numShards.toNat := Nat.mod_lt _ (by omega)
  have hq : b.toNat / c.numShards.toNat % 65536 < 65536 := Nat.mod_lt _ (by omega)
  have hlen := twice_length u c (documents h) k (added cwd new) hj (b.toNat / c.numShards.toNat % 65536) (by omega) (by rw [hal]; omega)
  rw [hal] at hlen
  obtain ⟨r, r1, r2, r3, _⟩ := Query.getLoop_unlim grow _ fuel rs ⟨b, none⟩ p3 p4 (Nat.lt_of_le_of_lt hlen hfuel)
  refine ⟨r, ?_, r2, fun s => ?_⟩
  · simp only [Query.get, if_neg hz, p1, p2, bind, Except.bind, Option.isSome_none]; exact r1
  · rw [r3]
    have hv : (⟨b, none⟩ : Blot).vis = [] := rfl
    have hbk : ∀ dat, hasBlot u c dat (b.toNat / c.numShards.toNat % 65536 * c.numShards.toNat + b.toNat % c.numShards.toNat) = hasBlot u c dat b.toNat := by
      intro dat
      have e : (b.toNat / c.numShards.toNat % 65536 * c.numShards.toNat + b.toNat % c.numShards.toNat) % (c.numShards.toNat * 65536) =
          b.toNat % (c.numShards.toNat * 65536) := by
        have := (mod_mul_split b.toNat c.numShards.toNat (b.toNat % c.numShards.toNat) (b.toNat / c.numShards.toNat % 65536) hj).mpr ⟨rfl, rfl⟩
        rw [← this, Nat.mod_mod]
      unfold hasBlot
      rw [e]
    rw [hv, List.nil_append, List.mem_map]
    have hmem := twice_mem u c (documents h) k (added cwd new) hj hq (by omega) (by rw [hal]; omega)
    simp only [hbk] at hmem
    have hpl : (inPlace (documents h) k (added cwd new)).length = k + new.length := by
      rw [inPlace, List.length_append, List.length_take, hal, Nat.min_eq_left hk]
    have htl : (List.take k (documents h)).length = k := by rw [List.length_take, Nat.min_eq_left hk]
    have hshow : ∀ (v : UInt32) (i : Nat) t, v.toNat = i + 1 → (inPlace (documents h) k (added cwd new))[i]? = some t →
        Doc.ofMeta (metaOf (inPlace (documents h) k (added cwd new)) v) = t.shown := by
      intro v i t e ht
      unfold metaOf
      rw [e, Nat.add_sub_cancel, ht]
      rfl
    constructor
    · rintro ⟨v, hvm, rfl⟩
      rcases (hmem v).mp hvm with ⟨i, t', e1, e2, e3⟩ | ⟨i, t', e1, e2, e3⟩
      · have hi := (List.getElem?_eq_some_iff.mp e1).1
        obtain ⟨t, ht⟩ : ∃ t, (inPlace (documents h) k (added cwd new))[i]? = some t := ⟨_, List.getElem?_eq_getElem (by omega)⟩
        exact ⟨i, t, ht, hshow v i t e3 ht, .inr ⟨t', e1, e2⟩⟩
      · have ht : (inPlace (documents h) k (added cwd new))[k + i]? = some t' := by
          rw [inPlace, List.getElem?_append_right (by omega), htl, Nat.add_sub_cancel_left]; exact e1
        exact ⟨k + i, t', ht, hshow v (k + i) t' e3 ht, .inl e2⟩
    · rintro ⟨i, t, ht, rfl, hb⟩
      have hi := (List.getElem?_eq_some_iff.mp ht).1
      have e : (UInt32.ofNat (i + 1)).toNat = i + 1 := by simp only [UInt32.toNat_ofNat']; omega
      refine ⟨UInt32.ofNat (i + 1), (hmem _).mpr ?_, hshow _ i t e ht⟩
      rw [e]
      rcases hb with hb | ⟨t', ht', hb⟩
      · by_cases hik : i < k
        · rw [inPlace, List.getElem?_append_left (by omega), List.getElem?_take_of_lt hik] at ht
          exact .inl ⟨i, t, ht, hb, rfl⟩
        · rw [inPlace, List.getElem?_append_right (by omega), htl] at ht
          exact .inr ⟨i - k, t, ht, hb, by omega⟩
      · exact .inl ⟨i, t', ht', hb, rfl⟩

end

/-- two empty files -/
def exEmpties : List Doc := [⟨[101], 0, 0, some []⟩, ⟨[102], 0, 0, some []⟩]

theorem exEmpties_fits : Fits asciiUni exCmdConfig (documents exCmdSessions ++ added [47] exEmpties) := by
  rw [exCmd_docs]
  exact ⟨by decide, by decide, by decide +kernel⟩

/-- The file of records of the tutorial's index is removed and two empty files are added: the query for a blot that both
texts had now returns the two empty files, of which neither has a blot at all. -/
theorem C95_nonvacuous : ∃ (d d' d'' : Dir) (x : Indexer) (y : Index) (q : QState) (b : UInt32) (r : Blot),
    History asciiUni Json.codec exCmdConfig exCmdSessions d ∧ CutFrom d d' ∧ Indexer.open Json.codec d' = .ok x ∧
    Indexer.Session asciiUni Json.codec [47] x exEmpties d' d'' ∧ Index.open Json.codec mergeSorter d'' = .ok y ∧ y.startQuery = .ok q ∧
    Query.get (fun _ => 0) y 5 q ⟨b, none⟩ = .ok r ∧
    (⟨[47, 101], 0, 0, none⟩ : Doc) ∈ r.vis ∧ (⟨[47, 102], 0, 0, none⟩ : Doc) ∈ r.vis ∧
    ∀ s ∈ r.vis, s = ⟨[47, 101], 0, 0, none⟩ ∨ s = ⟨[47, 102], 0, 0, none⟩ := by
  obtain ⟨d, hd⟩ := History.exists (u := asciiUni) exCmd_usable [47] [⟨[116, 47, 112], 0, 22, some exText1⟩, ⟨[116, 47, 113], 0, 24, some exText2⟩] [] exCmd_fits
  change History asciiUni Json.codec exCmdConfig exCmdSessions d at hd
  have hlost : RecordsLost d (fun f => if f = .dmd then none else d f) 0 := ⟨fun f hf => if_neg hf, .inr ⟨rfl, if_pos rfl⟩⟩
  obtain ⟨x, h1, ⟨d'', h2⟩, h3⟩ := C95_false exCmd_usable mergeSorter_isSorter hd exEmpties_fits hlost (Nat.zero_le _) (by rw [exCmd_docs]; decide)
  obtain ⟨y, q, h4, h5, _, h6⟩ := h3 d'' h2
  obtain ⟨r, h7, _, h8⟩ := h6 (fun _ => 0) 1 5 (by rw [exCmd_docs]; decide)
  have hin : inPlace (documents exCmdSessions) 0 (added [47] exEmpties) = [⟨[47, 101], 0, 0, []⟩, ⟨[47, 102], 0, 0, []⟩] := by
    rw [exCmd_docs]; decide +kernel
  have hb : hasBlot asciiUni exCmdConfig exText1 (1 : UInt32).toNat = true ∧ hasBlot asciiUni exCmdConfig exText2 (1 : UInt32).toNat = true := by
    decide +kernel
  rw [hin, exCmd_docs] at h8
  refine ⟨d, _, d'', x, y, q, 1, r, hd, hlost.cut, h1, h2, h4, h5, h7, (h8 _).mpr ⟨0, _, rfl, rfl, .inr ⟨_, rfl, hb.1⟩⟩,
    (h8 _).mpr ⟨1, _, rfl, rfl, .inr ⟨_, rfl, hb.2⟩⟩, fun s hs => ?_⟩
  obtain ⟨i, t, ht, rfl, _⟩ := (h8 s).mp hs
  match i, ht with
  | 0, ht => injection ht with ht; subst ht; exact .inl rfl
  | 1, ht => injection ht with ht; subst ht; exact .inr rfl

/-- The table of paths is lost: refused. -/
theorem C95_refused_nonvacuous : ∃ (d d' : Dir) (e : Err), History asciiUni Json.codec exCmdConfig exCmdSessions d ∧ CutFrom d d' ∧
    d .fnm ≠ none ∧ Indexer.open Json.codec d' = fail e := by
  obtain ⟨d, hd⟩ := History.exists (u := asciiUni) exCmd_usable [47] [⟨[116, 47, 112], 0, 22, some exText1⟩, ⟨[116, 47, 113], 0, 24, some exText2⟩] [] exCmd_fits
  change History asciiUni Json.codec exCmdConfig exCmdSessions d at hd
  have hcut : CutFrom d (fun f => if f = .fnm then none else d f) := by
    intro f
    by_cases hf : f = .fnm
    · exact .inl (if_pos hf)
    · simp only [if_neg hf]
      cases d f with
      | none => exact .inl rfl
      | some b => exact .inr ⟨b, b.length, rfl, by simp⟩
  obtain ⟨t, fs, k1, _⟩ := (History.rep exCmd_usable hd exCmd_fits).front
  rcases C95_refused exCmd_usable hd exCmd_fits hcut with ⟨e, g⟩ | ⟨g, _⟩
  · exact ⟨d, _, e, hd, hcut, by rw [k1]; simp, g⟩
  · rw [k1] at g; simp at g

end Dupi.Props
