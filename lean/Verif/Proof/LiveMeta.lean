import Verif.Proof.LiveFiles
/-! # The metadata while documents are added, as seen by a reader with an old path table -/

namespace Dupi
open Spec

/-! ### Files that are appended to -/

/-- the operations, one after the other, append to a file of length `n` -/
def Appends : Nat → List Op → Prop
  | _, [] => True
  | n, .create _ :: ops => Appends n ops
  | _, .trunc _ :: _ => False
  | n, .write _ p data :: ops => p = n ∧ Appends (n + data.length) ops

theorem Appends.run (ops : List Op) : ∀ {f : Bytes}, Appends f.length ops →
    ∃ g, onFiles (some f) ops = some (f ++ g) ∧ ∀ ops', ops' <+: ops → ∃ g', onFiles (some f) ops' = some (f ++ g') ∧ g' <+: g := by
  induction ops with
  | nil =>
    intro f _
    refine ⟨[], by simp [onFiles], fun ops' h => ⟨[], ?_, List.prefix_refl _⟩⟩
    rw [List.prefix_nil.mp h]; simp [onFiles]
  | cons op ops ih =>
    intro f h
    cases op with
    | create a =>
      obtain ⟨g, h1, h2⟩ := ih (f := f) h
      refine ⟨g, h1, fun ops' h' => ?_⟩
      rcases List.prefix_cons_iff.mp h' with e | ⟨t, e, h3⟩
      · exact ⟨[], by rw [e]; simp [onFiles], List.nil_prefix⟩
      · obtain ⟨g', k1, k2⟩ := h2 t h3
        exact ⟨g', by rw [e]; exact k1, k2⟩
    | trunc a => exact absurd h id
    | write a p data =>
      obtain ⟨rfl, h⟩ := h
      have e1 : (Op.write a f.length data).onFile (some f) = some (f ++ data) := by simp [Op.onFile, writeAt_end]
      obtain ⟨g, h1, h2⟩ := ih (f := f ++ data) (by simpa using h)
      have hcons : ∀ l, onFiles (some f) (Op.write a f.length data :: l) = onFiles (some (f ++ data)) l := by
        intro l; rw [← e1]; rfl
      refine ⟨data ++ g, by rw [hcons, h1, List.append_assoc], fun ops' h' => ?_⟩
      rcases List.prefix_cons_iff.mp h' with e | ⟨t, e, h3⟩
      · exact ⟨[], by rw [e]; simp [onFiles], List.nil_prefix⟩
      · obtain ⟨g', k1, k2⟩ := h2 t h3
        exact ⟨data ++ g', by rw [e, hcons, k1, List.append_assoc], (List.prefix_append_right_inj data).mpr k2⟩

theorem Appends.append {a b : List Op} : ∀ {n : Nat} {f : Bytes}, f.length = n → Appends n a → Appends ((onFiles (some f) a).getD []).length b → Appends n (a ++ b) := by
  induction a with
  | nil => intro n f hf _ h; rw [← hf]; exact h
  | cons op a ih =>
    intro n f hf h1 h2
    cases op with
    | create g => exact ih (f := f) hf h1 h2
    | trunc g => exact absurd h1 id
    | write g p data =>
      obtain ⟨rfl, h1⟩ := h1
      refine ⟨rfl, ih (f := f ++ data) (by simp [hf]) h1 ?_⟩
      have e1 : (Op.write g p data).onFile (some f) = some (f ++ data) := by rw [← hf]; simp [Op.onFile, writeAt_end]
      have : onFiles (some f) (Op.write g p data :: a) = onFiles (some (f ++ data)) a := by rw [← e1]; rfl
      rw [this] at h2
      exact h2

theorem writes_appends (f : File) (bs : List Bytes) : ∀ n, Appends n (Op.writes f n bs) := by
  induction bs with
  | nil => intro n; trivial
  | cons b bs ih => intro n; exact ⟨rfl, ih _⟩

theorem dmd_flushOps_appends (t : Dmd.Adder) (file : Option Bytes) : Appends (file.getD []).length (Dmd.flushOps t file) :=
  writes_appends _ _ _

theorem dmd_addOps_appends (t : Dmd.Adder) (file : Option Bytes) : Appends (file.getD []).length (Dmd.addOps t file) := by
  unfold Dmd.addOps
  split
  · exact dmd_flushOps_appends t file
  · trivial

theorem dmd_closeOps_appends (t : Dmd.Adder) (file : Option Bytes) : Appends (file.getD []).length (Dmd.closeOps t file) := by
  unfold Dmd.closeOps
  split
  · trivial
  · exact dmd_flushOps_appends t file

theorem Front.addsOps_appends (cwd : Bytes) (docs : List Doc) : ∀ {x : Front} {ops : List Op} {f : Bytes}, x.file = some f → x.addsOps cwd docs = .ok ops →
    Appends f.length ops := by
  induction docs with
  | nil =>
    intro x ops f _ h
    simp only [Front.addsOps, Except.ok.injEq] at h
    rw [← h]; trivial
  | cons doc docs ih =>
    intro x ops f hx h
    simp only [Front.addsOps, bind, Except.bind, pure, Except.pure] at h
    cases ha : x.add cwd doc with
    | error e => simp [ha] at h
    | ok r =>
      obtain ⟨id, z⟩ := r
      simp only [ha] at h
      cases hb : z.addsOps cwd docs with
      | error e => simp [hb] at h
      | ok ops' =>
        simp only [hb, Except.ok.injEq] at h
        rw [← h]
        have h1 := dmd_addOps_appends x.dmds x.file
        rw [hx, Option.getD_some] at h1
        have hz : onFiles x.file (Dmd.addOps x.dmds x.file) = z.file := by
          simp only [Front.add, bind, Except.bind, pure, Except.pure] at ha
          cases hp : Fnames.addPath cwd x.fnames doc.path with
          | error e => simp [hp] at ha
          | ok r =>
            simp only [hp, Except.ok.injEq, Prod.mk.injEq] at ha
            rw [dmd_addOps _ _ ⟨r.1, doc.start, doc.stop⟩, ← ha.2]
        rw [hx] at hz ⊢
        obtain ⟨g, hg, _⟩ := Appends.run _ h1
        rw [hg] at hz
        refine h1.append rfl ?_
        rw [hg]
        exact ih hz.symm hb

/-! ### Records and paths -/

theorem lookup_mono {f g : Bytes} (h : f <+: g) {id : UInt32} {r : Fields} (hr : Dmd.lookup f id = .ok r) : Dmd.lookup g id = .ok r := by
  obtain ⟨t, rfl⟩ := h
  by_cases hl : id.toNat * 12 + 12 ≤ f.length
  · rw [lookup_prefix _ _ _ hl]; exact hr
  · have : ∃ e, readFull (f.drop (id.toNat * Dmd.rcdSize)) Dmd.rcdSize = fail e := by
      simp only [Dmd.rcdSize, readFull]
      rw [if_neg (by simp; omega)]
      split <;> exact ⟨_, rfl⟩
    obtain ⟨e, he⟩ := this
    simp [Dmd.lookup, he, bind, Except.bind, fail] at hr

theorem lookup_tame (f : Bytes) (id : UInt32) : Tame (Dmd.lookup f id) := by
  by_cases hl : 12 ≤ (f.drop (id.toNat * 12)).length
  · have : readFull (f.drop (id.toNat * Dmd.rcdSize)) Dmd.rcdSize = .ok ((f.drop (id.toNat * 12)).take 12, (f.drop (id.toNat * 12)).drop 12) := by
      simp only [Dmd.rcdSize, readFull]; rw [if_pos hl]
    have hlt : ((f.drop (id.toNat * 12)).take 12).length = 12 := by rw [List.length_take]; omega
    match hq : (f.drop (id.toNat * 12)).take 12, hlt with
    | [a, b, c, d, e, f', g, h, i, j, k, l], _ =>
      rw [hq] at this
      exact .inl ⟨_, by simp only [Dmd.lookup, this, bind, Except.bind, getBE32, pure, Except.pure, List.drop]; rfl⟩
  · have : ∃ e, readFull (f.drop (id.toNat * Dmd.rcdSize)) Dmd.rcdSize = fail e := by
      simp only [Dmd.rcdSize, readFull]
      rw [if_neg hl]
      split <;> exact ⟨_, rfl⟩
    obtain ⟨e, he⟩ := this
    exact .inr ⟨e, by simp [Dmd.lookup, he, bind, Except.bind, fail]⟩

/-- a node that is not in the table -/
theorem Fnames.abs_outside {t : Fnames.Table} {v : UInt32} (h : t.length ≤ v.toNat) : Fnames.abs t v = panic' := by
  simp only [Fnames.abs, Fnames.absLoop, List.getElem?_eq_none h, bind, Except.bind]

/-- the table of a reader, and a later one -/
structure Older (t t' : Fnames.Table) : Prop where
  wf : Fnames.WF t
  wf' : Fnames.WF t'
  comps : ∀ i cs, Fnames.Comps t i cs → Fnames.Comps t' i cs

/-- a path of the later table is right, or not there, in the older one -/
theorem Older.abs {t t' : Fnames.Table} (h : Older t t') {v : UInt32} {cs : List Bytes} (hc : Fnames.Comps t' v.toNat cs) :
    (Fnames.abs t v = .ok (sep :: joinSlash cs) ∧ v.toNat < t.length ∧ Fnames.Comps t v.toNat cs) ∨ (Fnames.abs t v = panic' ∧ ∀ i, i < t.length → ¬ Fnames.Comps t i cs) := by
  by_cases hv : v.toNat < t.length
  · obtain ⟨cs', h1, _⟩ := h.wf.comps _ hv
    have := (h.comps _ _ h1).det hc
    subst this
    exact .inl ⟨h.wf.abs h1 hv, hv, h1⟩
  · refine .inr ⟨Fnames.abs_outside (by omega), fun i hi hc' => ?_⟩
    have := h.wf'.comps_inj (h.comps _ _ hc') hc
    omega

/-- what a reader with an older table finds: the document, an error, or a panic if the path is not in the older table -/
theorem docid_older {t t' : Fnames.Table} (ho : Older t t') {fs : List Fields} {docs : List Document} (hm : MetaRep t' fs docs) (hr : Rooted docs)
    {y : Index} (hy : y.fnames = t) (hp : y.dmd <+: (Dmd.zeroFields :: fs).flatMap Dmd.encode)
    {id : UInt32} (h1 : 1 ≤ id.toNat) (h2 : id.toNat ≤ docs.length) :
    ∃ s, docs[id.toNat - 1]? = some s ∧
      ((y.docid2Doc id = .ok (metaOf docs id) ∧ ∃ i, i < t.length ∧ Fnames.Comps t i (Fnames.pathParts s.path)) ∨
        (id.toNat * 12 + 12 > y.dmd.length ∧ Errs (y.docid2Doc id)) ∨
        (y.docid2Doc id = panic' ∧ ∀ i, i < t.length → ¬ Fnames.Comps t i (Fnames.pathParts s.path))) := by
  obtain ⟨s, hs⟩ : ∃ s, docs[id.toNat - 1]? = some s := ⟨_, List.getElem?_eq_getElem (by omega)⟩
  refine ⟨s, hs, ?_⟩
  obtain ⟨f, hfs⟩ : ∃ f, fs[id.toNat - 1]? = some f := ⟨_, List.getElem?_eq_getElem (by rw [hm.len]; omega)⟩
  have hd := hm.desc _ f s hfs hs
  have hget : (Dmd.zeroFields :: fs)[id.toNat]? = some f := by
    rw [show id.toNat = (id.toNat - 1) + 1 by omega]; exact hfs
  obtain ⟨hlt, hge⟩ := List.getElem?_eq_some_iff.mp hget
  have hl := Dmd.lookup_encode (Dmd.zeroFields :: fs) id hlt
  rw [hge] at hl
  rcases lookup_tame y.dmd id with ⟨r, hr'⟩ | ⟨e, he⟩
  · have := (lookup_mono hp hr').symm.trans hl
    injection this with this
    subst this
    obtain ⟨cwd, p, hpp⟩ := hr s (List.mem_of_getElem? hs)
    obtain ⟨q, hq1, hq2⟩ := Fnames.pathParts_abs cwd p
    rcases ho.abs hd.comps with ⟨ha, hb1, hb2⟩ | ⟨ha, hb⟩
    · rw [hpp, hq2, join_split, ← hq1, ← hpp] at ha
      refine .inl ⟨?_, _, hb1, hb2⟩
      simp only [Index.docid2Doc, hr', hy, ha, bind, Except.bind, pure, Except.pure, metaOf, hs, Document.meta, hd.start, hd.stop]
    · refine .inr (.inr ⟨?_, hb⟩)
      simp only [Index.docid2Doc, hr', hy, ha, bind, Except.bind, panic']
  · refine .inr (.inl ⟨?_, .wrap "docid2Doc" e, by simp [Index.docid2Doc, he, fail]⟩)
    false_or_by_contra
    rename_i hn
    obtain ⟨t, ht⟩ := hp
    rw [← ht, lookup_prefix _ _ _ (by omega), he] at hl
    simp [fail] at hl

/-! ### Sessions -/

theorem Front.adds_older (cwd : Bytes) (new : List Doc) : ∀ {x y : Front} {docs : List Document} {rs : List Front.Req}, FrontRep x docs →
    (docs ++ added cwd new).length + 1 < 2 ^ 32 → FewPaths ((docs ++ added cwd new).map fun s => s.path) →
    x.adds cwd new = .ok (rs, y) → ∀ i cs, Fnames.Comps x.fnames i cs → Fnames.Comps y.fnames i cs := by
  induction new with
  | nil =>
    intro x y docs rs _ _ _ h
    simp only [Front.adds, Except.ok.injEq, Prod.mk.injEq] at h
    rw [h.2]
    exact fun _ _ h => h
  | cons d new ih =>
    intro x y docs rs h h1 h2 ha
    have e : docs ++ added cwd (d :: new) = (docs ++ added cwd [d]) ++ added cwd new := by simp [added]
    rw [e] at h1 h2
    have l1 : (docs ++ added cwd [d]).length = docs.length + 1 := by simp [added]
    rw [List.length_append, l1] at h1
    obtain ⟨id, x1, g1, g2, g3⟩ := Front.add_rep h cwd d (by omega) (Fnames.FewPaths.mono (fun p hp => by rw [List.map_append]; exact List.mem_append_left _ hp) h2)
    simp only [Front.adds, g1, bind, Except.bind, pure, Except.pure] at ha
    cases hb : x1.adds cwd new with
    | error e => simp [hb] at ha
    | ok r =>
      obtain ⟨rs', y'⟩ := r
      simp only [hb, Except.ok.injEq, Prod.mk.injEq] at ha
      rw [← ha.2]
      intro i cs hc
      refine ih g2 (by rw [List.length_append, l1]; omega) h2 hb i cs ?_
      obtain ⟨fs, _, hm⟩ := h
      simp only [Front.add, bind, Except.bind, pure, Except.pure] at g1
      cases hp : Fnames.addPath cwd x.fnames d.path with
      | error e => simp [hp] at g1
      | ok r =>
        simp only [hp, Except.ok.injEq, Prod.mk.injEq] at g1
        rw [← g1.2]
        have h3 : FewPaths ((docs ++ added cwd [d]).map fun s => s.path) := Fnames.FewPaths.mono (fun p hp => by rw [List.map_append]; exact List.mem_append_left _ hp) h2
        rw [added_paths] at h3
        obtain ⟨ids, t', k1, _, _, _, _, _, _, k7, _⟩ := Fnames.addAll_spec cwd [d.path] hm.wf hm.names hm.onPaths h3
        simp only [Fnames.addAll, hp, bind, Except.bind, pure, Except.pure, Except.ok.injEq, Prod.mk.injEq] at k1
        rw [k1.2]
        exact k7 i cs hc

section
variable {u : Uni} {J : CfgCodec} {c : Config} {old : List Document} {d : Dir} {x : Indexer} {cwd : Bytes} {new : List Doc} {tr : Trace} {d' : Dir}
variable (hU : Usable J c) (A : Appending u J c old d x cwd new tr d')
include hU A

omit hU in
/-- the path table of an opened indexer -/
theorem Appending.frontTable : ∃ f, d .fnm = some f ∧ Fnames.read f = .ok x.front.fnames := by
  have h := A.opened
  simp only [Indexer.open, Dir.read, bind, Except.bind, pure, Except.pure] at h
  cases h1 : Config.readFrom J d with
  | error e => simp [h1] at h
  | ok c' =>
    simp only [h1] at h
    cases h2 : Indexer.makeShards c' with
    | error e => simp [h2] at h
    | ok n =>
      simp only [h2] at h
      cases h3 : Dmd.newAdder (d .dmd) c'.docFlushRate with
      | error e => simp [h3] at h
      | ok a =>
        simp only [h3] at h
        cases h4 : d .fnm with
        | none => simp [h4, fail] at h
        | some f =>
          simp only [h4] at h
          cases h5 : Fnames.read f with
          | error e => simp [h5] at h
          | ok t =>
            simp only [h5] at h
            refine ⟨f, rfl, ?_⟩
            revert h
            repeat' (split; · intro h; simp at h)
            intro h
            simp only [Except.ok.injEq] at h
            rw [← h]
            exact h5

/-- the tables and the records: those of the reader, of the finished index, and in between -/
theorem Appending.metas {srt : Sorter} {y : Index} (hy : Index.open J srt d = .ok y) : ∃ t' fs fs', Older y.fnames t' ∧ MetaRep y.fnames fs old ∧ MetaRep t' fs' (old ++ added cwd new) ∧
    d .dmd = some ((Dmd.zeroFields :: fs).flatMap Dmd.encode) ∧ d' .dmd = some ((Dmd.zeroFields :: fs').flatMap Dmd.encode) ∧
    (∀ s, s <+: tr.adds → ∃ f, onFiles (d .dmd) s = some f ∧ (Dmd.zeroFields :: fs).flatMap Dmd.encode <+: f ∧ f <+: (Dmd.zeroFields :: fs').flatMap Dmd.encode) ∧
    (∀ s, s <+: opsOn .dmd tr.closing → ∃ f, onFiles (onFiles (d .dmd) tr.adds) s = some f ∧ (Dmd.zeroFields :: fs).flatMap Dmd.encode <+: f ∧
      f <+: (Dmd.zeroFields :: fs').flatMap Dmd.encode) := by
  obtain ⟨i1, i2, ⟨f, i3, i4⟩, i5⟩ := openIndex_inv hy
  obtain ⟨f', k1, k2⟩ := A.frontTable
  rw [i3] at k1
  injection k1 with k1
  rw [← k1, i4] at k2
  injection k2 with k2
  obtain ⟨t, fs, t1, t2, t3⟩ := A.dir.front
  have hsz := t3.small A.fits.left.paths
  obtain ⟨t0, m1, m2⟩ := Fnames.read_write t t3.wf (by omega) t3.names
  rw [i3] at t1
  injection t1 with t1
  rw [t1, m1] at i4
  injection i4 with i4
  have hm : MetaRep y.fnames fs old := by rw [← i4]; exact t3.sim m2
  obtain ⟨rs, front, e1, e2, e3, e4, e5, e6⟩ := A.run.rep.ex
  obtain ⟨front', a1, a2⟩ := Front.adds_rep cwd new (A.rep hU).front A.fits.ids A.fits.paths
  have hcomps := Front.adds_older cwd new (A.rep hU).front A.fits.ids A.fits.paths e1
  rw [a1] at e1
  injection e1 with e1
  injection e1 with e1 e1'
  subst e1'
  obtain ⟨fs', hinv, hm'⟩ := a2
  have hfile := A.frontFile
  have hf : x.front.file = some ((Dmd.zeroFields :: fs).flatMap Dmd.encode) := by rw [← hfile]; exact t2
  have hadds : Appends ((Dmd.zeroFields :: fs).flatMap Dmd.encode).length tr.adds := by
    obtain ⟨g1, g2, g3, g4, g5, g6, g7⟩ := A.run
    exact Front.addsOps_appends cwd new hf g5
  obtain ⟨g, r1, r2⟩ := Appends.run _ hadds
  rw [← hf, e2] at r1
  have hclose := dmd_closeOps_appends front'.dmds front'.file
  rw [r1, Option.getD_some] at hclose
  obtain ⟨g', s1, s2⟩ := Appends.run _ hclose
  have hfin : d' .dmd = some ((Dmd.zeroFields :: fs').flatMap Dmd.encode) := by
    rw [e6 hfile, dmd_closeOps]; exact Dmd.close_inv hinv
  have hfin' : (Dmd.zeroFields :: fs').flatMap Dmd.encode = (Dmd.zeroFields :: fs).flatMap Dmd.encode ++ g ++ g' := by
    rw [e6 hfile, r1, s1] at hfin
    injection hfin with hfin
    exact hfin.symm
  refine ⟨front'.fnames, fs, fs', ⟨hm.wf, hm'.wf, by rw [k2]; exact hcomps⟩, hm, hm', t2, hfin, fun s hs => ?_, fun s hs => ?_⟩
  · obtain ⟨g1, q1, q2⟩ := r2 s hs
    refine ⟨_, by rw [t2]; exact q1, List.prefix_append _ _, ?_⟩
    rw [hfin', List.append_assoc]
    exact (List.prefix_append_right_inj _).mpr (q2.trans (List.prefix_append _ _))
  · obtain ⟨c1, c2, c3, c4⟩ := closingOps_files J x.config front'
    rw [e3, c4, r1] at hs
    obtain ⟨g1, q1, q2⟩ := s2 s hs
    refine ⟨_, by rw [hfile, e2, r1]; exact q1, by rw [List.append_assoc]; exact List.prefix_append _ _, ?_⟩
    rw [hfin']
    exact (List.prefix_append_right_inj _).mpr q2

end

end Dupi
