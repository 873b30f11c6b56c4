import Verif.Model.Run
import Verif.Props.Main
import Verif.Props.Text
import Verif.Props.Stats
import Verif.Props.Disk
import Verif.Props.IndexCmd
/-! # Indexing files, then extracting: C63 -/

namespace Dupi.Props
open Spec Cmd Disk

/-! ## dupi index -/

/-- the visible files below the arguments, in order -/
def filesOf (join : Bytes → Bytes → Bytes) (look : Bytes → Bytes × Option Node) (paths : List Bytes) : List (Bytes × FileRead) :=
  paths.flatMap fun p => match (look p).2 with
    | none => []
    | some node => visible join p (look p).1 node

/-- each argument exists, its visible directories can be listed and its visible files read -/
def Readable (join : Bytes → Bytes → Bytes) (look : Bytes → Bytes × Option Node) (paths : List Bytes) : Prop :=
  ∀ p ∈ paths, ∃ node, (look p).2 = some node ∧ Open (look p).1 node ∧ ∀ f ∈ visible join p (look p).1 node, ∃ dat, f.2 = .data dat

theorem doPaths_readable (join : Bytes → Bytes → Bytes) (look : Bytes → Bytes × Option Node) (paths : List Bytes) (h : Readable join look paths) (added : List Doc) :
    doPaths join look paths added = (false, added ++ (filesOf join look paths).filterMap docOf) := by
  induction paths generalizing added with
  | nil => simp [doPaths, filesOf]
  | cons p ps ih =>
    obtain ⟨node, h1, h2, h3⟩ := h p (by simp)
    have hf : Fine (fun _ => true) (visible join p (look p).1 node) := by
      intro f hf
      obtain ⟨dat, hd⟩ := h3 f hf
      obtain ⟨a, b⟩ := f
      simp only at hd
      subst hd
      exact ⟨_, rfl, rfl⟩
    rw [doPaths, h1, C42_all_visible join _ p _ node added hf h2]
    simp only
    rw [ih fun p hp => h p (by simp [hp])]
    simp [filesOf, h1]

section
variable (S : Strconv ℝ) (join : Bytes → Bytes → Bytes) (readCfg : Bytes → M Config)

/-- the options for a new index with sequences of 10 words -/
def NewIndex (opts : List Opt) : Prop :=
  (∀ o ∈ opts, IndexOpt S o) ∧ Flag.lastBool (opts.map fun o => (o.name, o.value)) [97] = false ∧ (valueOf opts [99]).getD [] = [] ∧ intOf S opts [116] 10 = 10

/-- options -r in front of the verb -/
def RootOpts (opts : List Opt) : Prop := (∀ o ∈ opts, RootOpt o) ∧ ∀ o ∈ opts, Apart o

/-- `dupi [-r ROOT] index [options] PATHS` makes an index at the promised root and adds the visible files below the paths, -/
theorem C63_index {gopts opts : List Opt} (hg : RootOpts gopts) (ho : NewIndex S opts) {l paths : List Bytes} (hl : Rest l paths) (p : Proc)
    (hr : Readable join p.look paths) :
    indexRun S join readCfg p (gopts.flatMap Opt.args ++ Verb.index.name :: (opts.flatMap Opt.args ++ l)) =
      some (.ok (.create p.cwd (plainConfig (absPath p.cwd (promised join p.env gopts)) (intOf S opts [110] 4) (intOf S opts [115] 4))
        ((filesOf join p.look paths).filterMap docOf), false)) := by
  obtain ⟨st, h1, h2⟩ := C58_index_partial S ho.1 hl p.cwd (promised join p.env gopts) readCfg ho.2.1 ho.2.2.1 ho.2.2.2
  unfold indexRun
  simp only [C57_runs_partial join p.env hg.1 hg.2 .index, h1, h2, bind, Except.bind, doPaths_readable join p.look paths hr, List.nil_append]
  rfl

/-- and with -a they are added to the index that is there. -/
theorem C63_add {gopts opts : List Opt} (hg : RootOpts gopts) (ho : ∀ o ∈ opts, IndexOpt S o)
    (ha : Flag.lastBool (opts.map fun o => (o.name, o.value)) [97] = true) {l paths : List Bytes} (hl : Rest l paths) (p : Proc) (hr : Readable join p.look paths) :
    indexRun S join readCfg p (gopts.flatMap Opt.args ++ Verb.index.name :: (opts.flatMap Opt.args ++ l)) =
      some (.ok (.append p.cwd (promised join p.env gopts) ((filesOf join p.look paths).filterMap docOf), false)) := by
  obtain ⟨st, h1, h2⟩ := C58_add_partial S ho hl p.cwd (promised join p.env gopts) readCfg ha
  unfold indexRun
  simp only [C57_runs_partial join p.env hg.1 hg.2 .index, h1, h2, bind, Except.bind, doPaths_readable join p.look paths hr, List.nil_append]
  rfl

end

/-! ## dupi extract -/

/-- "sigma" and "json" -/
def sigmaB : Bytes := [115, 105, 103, 109, 97]
def jsonB : Bytes := [106, 115, 111, 110]

/-- an option of the extract command -/
def ExtractOpt {F : Type} (S : Strconv F) (o : Opt) : Prop :=
  (o.name = sigmaB ∧ o.style ≠ .bare ∧ (S.parseFloat o.value).isSome) ∨
    ((o.name = jsonB ∨ o.name = [98]) ∧ ((o.style = .bare ∧ o.value = Flag.trueB) ∨ (o.style = .equals ∧ (Flag.parseBool o.value).isSome)))

theorem ExtractOpt.fine {F : Type} {S : Strconv F} {o : Opt} (h : ExtractOpt S o) : Flag.Fine (verbFlags S .extract) o := by
  obtain ⟨name, value, style, two⟩ := o
  rcases h with ⟨h1, h2, h3⟩ | ⟨h1 | h1, h2⟩ <;> simp only at h1 <;> subst h1
  · exact ⟨rfl, by simp [sigmaB], h2, h3⟩
  · exact ⟨rfl, by simp [jsonB], h2⟩
  · exact ⟨rfl, by simp, h2⟩

/-- the value of -sigma -/
noncomputable def sigmaOf (S : Strconv ℝ) (opts : List Opt) : ℝ := ((valueOf opts sigmaB).bind S.parseFloat).getD 2

/-- a boolean option is given, and the last time as true -/
def isOn (opts : List Opt) (n : Bytes) : Bool := ((valueOf opts n).bind Flag.parseBool).getD false

/-- What is printed about the documents `docs` of an index, for a value `σ` of -sigma: see C56 -/
structure Prints (u : Uni) (c : Config) (docs : List Document) (σ : ℝ) (out : List Blot) : Prop where
  nodup : (out.map Blot.blot).Nodup
  sound : ∀ b ∈ out, b.blot.toNat < numBuckets c ∧ b.vis = (found u c docs b.blot.toNat).map Document.shown ∧ 2 ≤ b.vis.length ∧
    mean (bucketSizes u c docs) + σ * sd (bucketSizes u c docs) - (1 / 2 + (65543 + c.numShards.toNat) / 2 ^ 52 *
      (mean (bucketSizes u c docs) + |σ| * sd (bucketSizes u c docs)) + |σ| * mean (bucketSizes u c docs) / 2 ^ 50) ≤ b.vis.length
  complete : ∀ b : UInt32, b.toNat < numBuckets c → 2 ≤ (found u c docs b.toNat).length →
    mean (bucketSizes u c docs) + σ * sd (bucketSizes u c docs) + (1 / 2 + (65543 + c.numShards.toNat) / 2 ^ 52 *
      (mean (bucketSizes u c docs) + |σ| * sd (bucketSizes u c docs)) + |σ| * mean (bucketSizes u c docs) / 2 ^ 50) ≤ (found u c docs b.toNat).length →
    b ∈ out.map Blot.blot
  sorted : out.Pairwise (fun a b => b.vis.length ≤ a.vis.length)

/-- with -sigma 0 and few documents per bucket, all shared buckets are printed -/
theorem Prints.all {u : Uni} {J : CfgCodec} {c : Config} {docs : List Document} {σ : ℝ} {out : List Blot} (h : Prints u c docs σ out) (hU : Usable J c) (hσ : σ = 0)
    (havg : 5 * (bucketSizes u c docs).sum ≤ 7 * numBuckets c) {m : UInt32} (m1 : m.toNat < numBuckets c) (h2 : 2 ≤ (found u c docs m.toNat).length) :
    m ∈ out.map Blot.blot := by
  refine h.complete m m1 h2 ?_
  rw [hσ, abs_zero, zero_mul, zero_mul, zero_div, add_zero, add_zero]
  have hN : 0 < numBuckets c := by omega
  have hμ : mean (bucketSizes u c docs) ≤ 7 / 5 := by
    unfold mean
    rw [show (bucketSizes u c docs).length = numBuckets c by simp [bucketSizes]]
    rw [div_le_iff₀ (by exact_mod_cast hN)]
    have : ((5 * (bucketSizes u c docs).sum : ℕ) : ℝ) ≤ ((7 * numBuckets c : ℕ) : ℝ) := by exact_mod_cast havg
    push_cast at this ⊢
    linarith
  have hμ0 := mean_nonneg (bucketSizes u c docs)
  generalize mean (bucketSizes u c docs) = μ at *
  have hK : (65543 + (c.numShards.toNat : ℝ)) / 2 ^ 52 ≤ 1 / 100 := by
    rw [div_le_iff₀ (by positivity)]
    have := hU.shardsSmall
    have h3 : ((65543 + c.numShards.toNat : ℕ) : ℝ) ≤ ((2 ^ 33 : ℕ) : ℝ) := by exact_mod_cast (show 65543 + c.numShards.toNat ≤ 2 ^ 33 by omega)
    push_cast at h3
    norm_num at h3 ⊢
    linarith
  have h4 : (65543 + (c.numShards.toNat : ℝ)) / 2 ^ 52 * μ ≤ 1 / 100 * μ := mul_le_mul_of_nonneg_right hK hμ0
  have h5 : ((2 : ℕ) : ℝ) ≤ ((found u c docs m.toNat).length : ℝ) := by exact_mod_cast h2
  push_cast at h5
  linarith

section
variable {u : Uni} {J : CfgCodec} {srt : Sorter} (hsrt : IsSorter srt) (S : Strconv ℝ) (join : Bytes → Bytes → Bytes) (fused fused' : Bool) (grow : Nat → Nat)
  {ff fuel k : Nat} (hff : 2 ^ 32 ≤ ff) (hfuel : 2 ^ 32 + 2 ^ 32 + 2 ^ 32 < fuel) (hk : 2 ^ 32 < k)
include hsrt hff hfuel hk

theorem extract_any {ops : List Op} {d : Disk} (hm : ∀ op ∈ ops, Made J op) (hs : Steps u J srt Disk.empty ops d)
    {gopts opts : List Opt} (hg : RootOpts gopts) (ho : ∀ o ∈ opts, ExtractOpt S o) {l rest : List Bytes} (hl : Rest l rest) (p : Proc)
    {c : Config} {h : Sessions} (hc : catalogue ops (Spec.place p.cwd (promised join p.env gopts)) = some (c, h)) (hf : Fits u c (documents h))
    (hσ : |sigmaOf S opts| ≤ 2 ^ 20) :
    ∃ out, extractRun S join J srt fused fused' grow ff fuel k d p (gopts.flatMap Opt.args ++ Verb.extract.name :: (opts.flatMap Opt.args ++ l)) =
        some (.ok (if isOn opts jsonB then extractJson out else if isOn opts [98] then extractBlots out else extractText out)) ∧
      Prints u c (documents h) (sigmaOf S opts) out := by
  have h1 := C52_open hm hs p.cwd (promised join p.env gopts)
  rw [hc] at h1
  obtain ⟨x, q, h2, h3, _⟩ := h1 hsrt hf
  obtain ⟨_, _, _, hU, _⟩ := (Steps.shows hm hs).held hc
  obtain ⟨T, δ, out, rfl, rfl, o1, o2, o3, o4, o5⟩ := C56_sigma hU hsrt (isOn opts jsonB) fused fused' h3 hf grow ff fuel k hff hfuel hk (sigmaOf S opts) hσ
  have hp := Flag.parse_opts (fun o h => (ho o h).fine) hl
  refine ⟨out, ?_, o2, o3, o4, o5⟩
  unfold extractRun
  have e1 : lastSigma S (opts.map fun o => (o.name, o.value)) = sigmaOf S opts := by
    unfold lastSigma sigmaOf; rw [Flag.last_valueOf]; rfl
  have e2 (n : Bytes) : Flag.lastBool (opts.map fun o => (o.name, o.value)) n = isOn opts n := by
    unfold Flag.lastBool isOn; rw [Flag.last_valueOf]
  have hj' : isOn opts [106, 115, 111, 110] = isOn opts jsonB := rfl
  simp only [C57_runs_partial join p.env hg.1 hg.2 .extract, hp, e1, e2, hj', h2, o1, Option.map_some, bind, Except.bind]
  rfl

/-- **C63**, second half.  After any operations on a disk, `dupi [-r ROOT] extract [options]` prints the blots of the documents of the index that is at the promised root. -/
theorem C63_extract {ops : List Op} {d : Disk} (hm : ∀ op ∈ ops, Made J op) (hs : Steps u J srt Disk.empty ops d)
    {gopts opts : List Opt} (hg : RootOpts gopts) (ho : ∀ o ∈ opts, ExtractOpt S o) (hj : isOn opts jsonB = false) {l rest : List Bytes} (hl : Rest l rest) (p : Proc)
    {c : Config} {h : Sessions} (hc : catalogue ops (Spec.place p.cwd (promised join p.env gopts)) = some (c, h)) (hf : Fits u c (documents h))
    (hσ : |sigmaOf S opts| ≤ 2 ^ 20) :
    ∃ out, extractRun S join J srt fused fused' grow ff fuel k d p (gopts.flatMap Opt.args ++ Verb.extract.name :: (opts.flatMap Opt.args ++ l)) =
        some (.ok (if isOn opts [98] then extractBlots out else extractText out)) ∧ Prints u c (documents h) (sigmaOf S opts) out := by
  obtain ⟨out, h1, h2⟩ := extract_any hsrt S join fused fused' grow hff hfuel hk hm hs hg ho hl p hc hf hσ
  exact ⟨out, by rw [h1, hj]; rfl, h2⟩

end

/-! ## Both -/

theorem plainConfig_usable {root : Bytes} (hr : IsText root) {n s : Int} (h1 : 0 < n) (h2 : n < 2 ^ 32) (h3 : 0 < s) (h4 : s < 2 ^ 63) :
    Usable Json.codec (plainConfig root n s) :=
  usable_json _
    ⟨⟨by show (-2 ^ 63 : Int) ≤ 10; decide, by show (10 : Int) < 2 ^ 63; decide⟩, ⟨by show -2 ^ 63 ≤ n; omega, by show n < 2 ^ 63; omega⟩,
      ⟨by show (-2 ^ 63 : Int) ≤ s; omega, by show s < 2 ^ 63; omega⟩, ⟨by show (-2 ^ 63 : Int) ≤ 16384; decide, by show (16384 : Int) < 2 ^ 63; decide⟩,
      ⟨by show (-2 ^ 63 : Int) ≤ 10; decide, by show (10 : Int) < 2 ^ 63; decide⟩, ⟨by show (-2 ^ 63 : Int) ≤ 1; decide, by show (1 : Int) < 2 ^ 63; decide⟩⟩
    ⟨by simp [plainConfig], by simp [plainConfig], by simp [plainConfig], rfl⟩ h1 h2 h3 (by show (1 : Int) ≤ 16384; decide) hr

/-- the files as documents: absolute path, from 0 to the length -/
def fileDocs (cwd : Bytes) (files : List (Bytes × FileRead)) : List Document :=
  files.filterMap fun f => match f.2 with
    | .data dat => some ⟨placeName (Spec.place cwd f.1), 0, UInt32.ofNat dat.length, dat⟩
    | _ => none

theorem documents_files (cwd : Bytes) (files : List (Bytes × FileRead)) : documents [(cwd, files.filterMap docOf)] = fileDocs cwd files := by
  simp only [documents, List.flatMap_cons, List.flatMap_nil, List.append_nil, added]
  induction files with
  | nil => rfl
  | cons f files ih =>
    obtain ⟨a, b⟩ := f
    cases b <;> simp only [fileDocs, List.filterMap_cons, docOf, List.map_cons] <;> first | exact ih | (rw [ih]; rfl)

section
variable (u : Uni) (srt : Sorter) (S : Strconv ℝ) (join : Bytes → Bytes → Bytes) (readCfg : Bytes → M Config)

/-- a run of the index command without an error takes the disk from `d` to `d'` -/
def IndexRuns (d : Disk) (p : Proc) (args : List Bytes) (d' : Disk) : Prop :=
  ∃ op, indexRun S join readCfg p args = some (.ok (op, false)) ∧ Step u Json.codec srt d op d'

end

section
variable {u : Uni} {srt : Sorter} (hsrt : IsSorter srt) (S : Strconv ℝ) (join : Bytes → Bytes → Bytes) (readCfg : Bytes → M Config)
  (fused fused' : Bool) (grow : Nat → Nat) {ff fuel k : Nat} (hff : 2 ^ 32 ≤ ff) (hfuel : 2 ^ 32 + 2 ^ 32 + 2 ^ 32 < fuel) (hk : 2 ^ 32 < k)

section
variable {ops : List Op} {d : Disk} (hm : ∀ op ∈ ops, Made Json.codec op) (hs : Steps u Json.codec srt Disk.empty ops d)
  {args : List Bytes} {p : Proc} {c : Config} {files : List (Bytes × FileRead)}
  (h0 : indexRun S join readCfg p args = some (.ok (.create p.cwd c (files.filterMap docOf), false))) (hU : Usable Json.codec c) (hroot : c.indexRoot.head? = some 47)
  (hfree : catalogue ops (Spec.place p.cwd c.indexRoot) = none) (hf : Fits u c (fileDocs p.cwd files))
include hsrt hff hfuel hk hm hs h0 hU hroot hfree hf

omit hsrt hff hfuel hk hroot in
/-- the run is possible -/
theorem create_possible : ∃ d', IndexRuns u srt S join readCfg d p args d' := by
  obtain ⟨x, g1, g2⟩ := create_rep (u := u) hU
  have hfn : Fits u c ([] ++ added p.cwd (files.filterMap docOf)) := by
    have := documents_files p.cwd files
    simp only [documents, List.flatMap_cons, List.flatMap_nil, List.append_nil] at this
    rw [List.nil_append, this]; exact hf
  obtain ⟨d1, hd1⟩ := Session.exists hU g2 p.cwd _ hfn (d := Dir.empty) (.inl rfl)
  exact ⟨_, _, h0, .create (by rw [resolve_place]; exact (Steps.shows hm hs).free hfree) g1 hd1⟩

/-- after a run that makes an index, extract prints its blots -/
theorem create_extract : (∃ d', IndexRuns u srt S join readCfg d p args d') ∧
    ∀ d', IndexRuns u srt S join readCfg d p args d' →
    ∀ {gopts' opts' : List Opt}, RootOpts gopts' → (∀ o ∈ opts', ExtractOpt S o) → ∀ {l' rest : List Bytes}, Rest l' rest →
    ∀ p' : Proc, Spec.place p'.cwd (promised join p'.env gopts') = Spec.place p.cwd c.indexRoot →
    |sigmaOf S opts'| ≤ 2 ^ 20 →
    ∃ out, extractRun S join Json.codec srt fused fused' grow ff fuel k d' p' (gopts'.flatMap Opt.args ++ Verb.extract.name :: (opts'.flatMap Opt.args ++ l')) =
        some (.ok (if isOn opts' jsonB then extractJson out else if isOn opts' [98] then extractBlots out else extractText out)) ∧
      Prints u c (fileDocs p.cwd files) (sigmaOf S opts') out := by
  have hop : Made Json.codec (.create p.cwd c (files.filterMap docOf)) := ⟨hU, hroot⟩
  constructor
  · exact create_possible S join readCfg hm hs h0 hU hfree hf
  · rintro d' ⟨op, e1, e2⟩ gopts' opts' hg' ho' l' rest hl' p' hp' hσ
    rw [h0] at e1
    injection e1 with e1; injection e1 with e1; injection e1 with e1
    subst e1
    have hcat : catalogue (ops ++ [.create p.cwd c (files.filterMap docOf)]) (Spec.place p'.cwd (promised join p'.env gopts')) =
        some (c, [(p.cwd, files.filterMap docOf)]) := by
      simp only [catalogue, List.foldl_append, List.foldl_cons, List.foldl_nil, Catalogue.after, at_, hp', if_true]
    have := extract_any hsrt S join fused fused' grow hff hfuel hk (ops := ops ++ [.create p.cwd c (files.filterMap docOf)])
      (fun op hop' => (List.mem_append.mp hop').elim (hm op) fun h => by rw [List.mem_singleton] at h; subst h; exact hop) (hs.snoc e2) hg' ho' hl' p' hcat
      (by rw [documents_files]; exact hf) hσ
    rw [documents_files] at this
    exact this

/-- and with -sigma 0 and few documents per bucket, documents with a long enough sequence of words in common are on a line -/
theorem create_shared {A B D : List Document} {s t : Document} (hd : fileDocs p.cwd files = A ++ s :: B ++ t :: D)
    {p1 w1 r1 p2 w2 r2 : List (List Char)} (h1 : wordChars u s.dat = p1 ++ w1 ++ r1) (h2 : wordChars u t.dat = p2 ++ w2 ++ r2)
    (hlen : w1.length = c.seqLen.toNat + 1) (hw : w1.map (List.map (lowerChar u)) = w2.map (List.map (lowerChar u)))
    (havg : 5 * (bucketSizes u c (fileDocs p.cwd files)).sum ≤ 7 * numBuckets c) {d' : Disk}
    (hrun : IndexRuns u srt S join readCfg d p args d')
    {gopts' opts' : List Opt} (hg' : RootOpts gopts') (ho' : ∀ o ∈ opts', ExtractOpt S o) (hj' : isOn opts' jsonB = false) (hb' : isOn opts' [98] = false)
    {l' rest : List Bytes} (hl' : Rest l' rest) (p' : Proc) (hp' : Spec.place p'.cwd (promised join p'.env gopts') = Spec.place p.cwd c.indexRoot)
    (hσ : sigmaOf S opts' = 0) :
    ∃ before b line after, extractRun S join Json.codec srt fused fused' grow ff fuel k d' p' (gopts'.flatMap Opt.args ++ Verb.extract.name :: (opts'.flatMap Opt.args ++ l')) =
        some (.ok (before ++ (hex b ++ line.flatMap docText ++ [10]) ++ after)) ∧ (before = [] ∨ before.getLast? = some 10) ∧
      [(⟨s.path, s.start, s.stop, none⟩ : Doc), ⟨t.path, t.start, t.stop, none⟩].Sublist line := by
  obtain ⟨_, key⟩ := create_extract hsrt S join readCfg fused fused' grow hff hfuel hk hm hs h0 hU hroot hfree hf
  obtain ⟨out, e1, e2⟩ := key d' hrun hg' ho' hl' p' hp' (by rw [hσ, abs_zero]; positivity)
  obtain ⟨m, m1, m2⟩ := shared_bucket hU hd h1 h2 hlen hw
  have hlen2 := m2.length_le
  simp only [List.length_cons, List.length_nil] at hlen2
  have hmem := e2.all hU hσ havg m1 hlen2
  obtain ⟨b, hb, rfl⟩ := List.mem_map.mp hmem
  obtain ⟨o1, o2, rfl⟩ := List.append_of_mem hb
  refine ⟨extractText o1, b.blot, b.vis, extractText o2, ?_, ?_, ?_⟩
  · rw [e1, hj', hb']
    simp [extractText, blotLine]
  · cases o1 using List.reverseRecOn with
    | nil => exact .inl rfl
    | append_singleton o1 a => right; simp [extractText, blotLine]
  · rw [(e2.sound b hb).2.1]
    exact m2.map Document.shown

end

section
variable {ops : List Op} {d : Disk} (hm : ∀ op ∈ ops, Made Json.codec op) (hs : Steps u Json.codec srt Disk.empty ops d)
  {gopts opts : List Opt} (hg : RootOpts gopts) (ho : NewIndex S opts) {l paths : List Bytes} (hl : Rest l paths) (p : Proc)
  (hr : Readable join p.look paths) (hn : 0 < intOf S opts [110] 4) (hn' : intOf S opts [110] 4 < 2 ^ 32) (hsh : 0 < intOf S opts [115] 4) (hsh' : intOf S opts [115] 4 < 2 ^ 63)
  (ht : IsText (absPath p.cwd (promised join p.env gopts))) (hfree : catalogue ops (Spec.place p.cwd (promised join p.env gopts)) = none)
  {c : Config} (hc : c = plainConfig (absPath p.cwd (promised join p.env gopts)) (intOf S opts [110] 4) (intOf S opts [115] 4))
  (hf : Fits u c (fileDocs p.cwd (filesOf join p.look paths)))
include hsrt hff hfuel hk hm hs hg ho hl hr hn hn' hsh hsh' ht hfree hc hf

theorem index_extract : (∃ d', IndexRuns u srt S join readCfg d p (gopts.flatMap Opt.args ++ Verb.index.name :: (opts.flatMap Opt.args ++ l)) d') ∧
    ∀ d', IndexRuns u srt S join readCfg d p (gopts.flatMap Opt.args ++ Verb.index.name :: (opts.flatMap Opt.args ++ l)) d' →
    ∀ {gopts' opts' : List Opt}, RootOpts gopts' → (∀ o ∈ opts', ExtractOpt S o) → ∀ {l' rest : List Bytes}, Rest l' rest →
    ∀ p' : Proc, Spec.place p'.cwd (promised join p'.env gopts') = Spec.place p.cwd (promised join p.env gopts) →
    |sigmaOf S opts'| ≤ 2 ^ 20 →
    ∃ out, extractRun S join Json.codec srt fused fused' grow ff fuel k d' p' (gopts'.flatMap Opt.args ++ Verb.extract.name :: (opts'.flatMap Opt.args ++ l')) =
        some (.ok (if isOn opts' jsonB then extractJson out else if isOn opts' [98] then extractBlots out else extractText out)) ∧
      Prints u c (fileDocs p.cwd (filesOf join p.look paths)) (sigmaOf S opts') out := by
  have h0 := C63_index S join readCfg hg ho hl p hr
  rw [← hc] at h0
  have hU : Usable Json.codec c := by rw [hc]; exact plainConfig_usable ht hn hn' hsh hsh'
  have hroot : c.indexRoot = absPath p.cwd (promised join p.env gopts) := by rw [hc]; rfl
  have hpl : Spec.place p.cwd c.indexRoot = Spec.place p.cwd (promised join p.env gopts) := by rw [hroot, place_absPath]
  have := create_extract hsrt S join readCfg fused fused' grow hff hfuel hk hm hs h0 hU (by rw [hroot]; exact absPath_head _ _) (by rw [hpl]; exact hfree) hf
  rw [hpl] at this
  exact this

/-- **C63.**  `dupi [-r ROOT] index [options] PATHS`, where there is no index at ROOT, succeeds if all visible files can be read, and whatever the schedule,
`dupi [-r ROOT] extract [options]` run afterwards, in any working directory from which ROOT leads there, prints the blots of the visible files. -/
theorem C63_index_extract : (∃ d', IndexRuns u srt S join readCfg d p (gopts.flatMap Opt.args ++ Verb.index.name :: (opts.flatMap Opt.args ++ l)) d') ∧
    ∀ d', IndexRuns u srt S join readCfg d p (gopts.flatMap Opt.args ++ Verb.index.name :: (opts.flatMap Opt.args ++ l)) d' →
    ∀ {gopts' opts' : List Opt}, RootOpts gopts' → (∀ o ∈ opts', ExtractOpt S o) → isOn opts' jsonB = false → ∀ {l' rest : List Bytes}, Rest l' rest →
    ∀ p' : Proc, Spec.place p'.cwd (promised join p'.env gopts') = Spec.place p.cwd (promised join p.env gopts) →
    |sigmaOf S opts'| ≤ 2 ^ 20 →
    ∃ out, extractRun S join Json.codec srt fused fused' grow ff fuel k d' p' (gopts'.flatMap Opt.args ++ Verb.extract.name :: (opts'.flatMap Opt.args ++ l')) =
        some (.ok (if isOn opts' [98] then extractBlots out else extractText out)) ∧
      Prints u c (fileDocs p.cwd (filesOf join p.look paths)) (sigmaOf S opts') out := by
  obtain ⟨h1, h2⟩ := index_extract hsrt S join readCfg fused fused' grow hff hfuel hk hm hs hg ho hl p hr hn hn' hsh hsh' ht hfree hc hf
  refine ⟨h1, fun d' hd' gopts' opts' hg' ho' hj' l' rest hl' p' hp' hσ => ?_⟩
  obtain ⟨out, h3, h4⟩ := h2 d' hd' hg' ho' hl' p' hp' hσ
  exact ⟨out, by rw [h3, hj']; rfl, h4⟩

/-- **C63.**  With -sigma 0, and if there are not more than 1.4 documents per bucket on average, any two of the visible files that have eleven words
in a row in common (in any case, with any separators) are printed together on a line: with their absolute paths, from 0 to their lengths. -/
theorem C63_shared {A B D : List Document} {s t : Document} (hd : fileDocs p.cwd (filesOf join p.look paths) = A ++ s :: B ++ t :: D)
    {p1 w1 r1 p2 w2 r2 : List (List Char)} (h1 : wordChars u s.dat = p1 ++ w1 ++ r1) (h2 : wordChars u t.dat = p2 ++ w2 ++ r2)
    (hlen : w1.length = 11) (hw : w1.map (List.map (lowerChar u)) = w2.map (List.map (lowerChar u)))
    (havg : 5 * (bucketSizes u c (fileDocs p.cwd (filesOf join p.look paths))).sum ≤ 7 * numBuckets c) {d' : Disk}
    (hrun : IndexRuns u srt S join readCfg d p (gopts.flatMap Opt.args ++ Verb.index.name :: (opts.flatMap Opt.args ++ l)) d')
    {gopts' opts' : List Opt} (hg' : RootOpts gopts') (ho' : ∀ o ∈ opts', ExtractOpt S o) (hj' : isOn opts' jsonB = false) (hb' : isOn opts' [98] = false)
    {l' rest : List Bytes} (hl' : Rest l' rest) (p' : Proc) (hp' : Spec.place p'.cwd (promised join p'.env gopts') = Spec.place p.cwd (promised join p.env gopts))
    (hσ : sigmaOf S opts' = 0) :
    ∃ before b line after, extractRun S join Json.codec srt fused fused' grow ff fuel k d' p' (gopts'.flatMap Opt.args ++ Verb.extract.name :: (opts'.flatMap Opt.args ++ l')) =
        some (.ok (before ++ (hex b ++ line.flatMap docText ++ [10]) ++ after)) ∧ (before = [] ∨ before.getLast? = some 10) ∧
      [(⟨s.path, s.start, s.stop, none⟩ : Doc), ⟨t.path, t.start, t.stop, none⟩].Sublist line := by
  have h0 := C63_index S join readCfg hg ho hl p hr
  rw [← hc] at h0
  have hU : Usable Json.codec c := by rw [hc]; exact plainConfig_usable ht hn hn' hsh hsh'
  have hroot : c.indexRoot = absPath p.cwd (promised join p.env gopts) := by rw [hc]; rfl
  have hpl : Spec.place p.cwd c.indexRoot = Spec.place p.cwd (promised join p.env gopts) := by rw [hroot, place_absPath]
  exact create_shared hsrt S join readCfg fused fused' grow hff hfuel hk hm hs h0 hU (by rw [hroot]; exact absPath_head _ _) (by rw [hpl]; exact hfree) hf
    hd h1 h2 (by rw [hlen, hc]; rfl) hw havg hrun hg' ho' hj' hb' hl' p' (hp'.trans hpl.symm) hσ

end
end
/-! ## Non-vacuity -/

theorem bucketsOf_le (u : Uni) (c : Config) (dat : Bytes) : (bucketsOf u c dat).length ≤ (blotsOf u c dat).length := by
  have h1 : (bucketsOf u c dat).Nodup := List.Nodup.filter _ List.nodup_range
  have h2 : ∀ b ∈ bucketsOf u c dat, b ∈ (blotsOf u c dat).map fun x => x.toNat % numBuckets c := by
    intro b hb
    obtain ⟨g1, g2⟩ := List.mem_filter.mp hb
    simp only [hasBlot, List.any_eq_true, decide_eq_true_eq] at g2
    obtain ⟨x, hx, e⟩ := g2
    refine List.mem_map.mpr ⟨x, hx, ?_⟩
    rw [numBuckets, e]
    exact Nat.mod_eq_of_lt (List.mem_range.mp g1)
  have := (h1.subperm h2).length_le
  rwa [List.length_map] at this

/-- the average is small if the documents have few words -/
theorem bucketSizes_sum (u : Uni) (c : Config) (docs : List Document) :
    (bucketSizes u c docs).sum = (docs.map fun s => (bucketsOf u c s.dat).length).sum :=
  sum_found u c docs (numBuckets c)

theorem bucketSizes_sum_le (u : Uni) (c : Config) (docs : List Document) : (bucketSizes u c docs).sum ≤ numBlots u c docs := by
  rw [bucketSizes_sum]
  unfold numBlots
  induction docs with
  | nil => simp
  | cons s docs ih =>
    simp only [List.map_cons, List.sum_cons]
    have := bucketsOf_le u c s.dat
    omega

/-- "a b c d e f g h i j k." and "x A B C D E F G H I J K!" -/
def exText1 : Bytes := [97, 32, 98, 32, 99, 32, 100, 32, 101, 32, 102, 32, 103, 32, 104, 32, 105, 32, 106, 32, 107, 46]
def exText2 : Bytes := [120, 32, 65, 32, 66, 32, 67, 32, 68, 32, 69, 32, 70, 32, 71, 32, 72, 32, 73, 32, 74, 32, 75, 33]

/-- a directory "t" with a file "p", a hidden file and a file "q" -/
def exProc : Proc := ⟨[47], ⟨[], []⟩, fun p =>
  if p = [116] then ([116], some (.dir (some [([112], .file (.data exText1)), ([46, 104], .file .openFails), ([113], .file (.data exText2))]))) else (p, none)⟩

def exJoin (a b : Bytes) : Bytes := a ++ 47 :: b

noncomputable def exFloat : Strconv ℝ := ⟨fun _ => none, fun b => if b = [48] then some 0 else none⟩

/-- `dupi -r x index t` -/
def exIndexArgs : List Bytes := [[45, 114], [120], Verb.index.name, [116]]
/-- `dupi -r=/x extract -sigma 0`, in another directory -/
def exExtractArgs : List Bytes := [[45, 114, 61, 47, 120], Verb.extract.name, [45] ++ sigmaB, [48]]
def exProc' : Proc := ⟨[47, 119], ⟨[], []⟩, fun p => (p, none)⟩

/-- both are printed: "t/p" and "t/q" -/
theorem C63_nonvacuous (readCfg : Bytes → M Config) (grow : Nat → Nat) : ∃ d', IndexRuns asciiUni mergeSorter exFloat exJoin readCfg Disk.empty exProc exIndexArgs d' ∧
    ∃ before b line after, extractRun exFloat exJoin Json.codec mergeSorter false false grow (2 ^ 32) (2 ^ 40) (2 ^ 33) d' exProc' exExtractArgs =
        some (.ok (before ++ (hex b ++ line.flatMap docText ++ [10]) ++ after)) ∧ (before = [] ∨ before.getLast? = some 10) ∧
      [(⟨[47, 116, 47, 112], 0, 22, none⟩ : Doc), ⟨[47, 116, 47, 113], 0, 24, none⟩].Sublist line := by
  have hg : RootOpts [⟨[114], [120], .apart, false⟩] := ⟨by simp [RootOpt], by simp [Apart]; intro v; cases v <;> decide⟩
  have hg' : RootOpts [⟨[114], [47, 120], .equals, false⟩] := ⟨by simp [RootOpt], by simp [Apart]⟩
  have ho : NewIndex exFloat [] := ⟨by simp, rfl, rfl, rfl⟩
  have hl : Rest [[116]] [[116]] := .plain (by simp)
  have hr : Readable exJoin exProc.look [[116]] := by
    intro p hp
    rw [List.mem_singleton] at hp
    subst hp
    refine ⟨_, rfl, ?_, ?_⟩
    · simp [Open, OpenAll, exProc]
    · intro f hf
      have : f ∈ [([116, 47, 112], FileRead.data exText1), ([116, 47, 113], FileRead.data exText2)] := by
        revert hf
        simp [exProc, visible, visibleAll, Hidden, exJoin]
      simp only [List.mem_cons, List.not_mem_nil, or_false] at this
      rcases this with rfl | rfl <;> exact ⟨_, rfl⟩
  have hfd : fileDocs exProc.cwd (filesOf exJoin exProc.look [[116]]) = [⟨[47, 116, 47, 112], 0, 22, exText1⟩, ⟨[47, 116, 47, 113], 0, 24, exText2⟩] := by
    decide +kernel
  let c : Config := plainConfig (absPath exProc.cwd (promised exJoin exProc.env [⟨[114], [120], .apart, false⟩])) (intOf exFloat [] [110] 4) (intOf exFloat [] [115] 4)
  have hc : c = plainConfig [47, 120] 4 4 := by
    have : absPath exProc.cwd (promised exJoin exProc.env [⟨[114], [120], .apart, false⟩]) = [47, 120] := by decide +kernel
    simp only [c, this]; rfl
  have hnb : numBlots asciiUni c (fileDocs exProc.cwd (filesOf exJoin exProc.look [[116]])) = 3 := by
    rw [hfd, hc]; decide +kernel
  have hf : Fits asciiUni c (fileDocs exProc.cwd (filesOf exJoin exProc.look [[116]])) := by
    refine ⟨?_, ?_, by rw [hnb]; decide⟩
    · rw [hfd]; decide
    · rw [hfd]; decide
  have ht : IsText (absPath exProc.cwd (promised exJoin exProc.env [⟨[114], [120], .apart, false⟩])) := isText_iff.mpr (by decide +kernel)
  have hfree : catalogue [] (Spec.place exProc.cwd (promised exJoin exProc.env [⟨[114], [120], .apart, false⟩])) = none := rfl
  obtain ⟨⟨d', hd'⟩, _⟩ := C63_index_extract mergeSorter_isSorter exFloat exJoin readCfg false false grow (ff := 2 ^ 32) (fuel := 2 ^ 40) (k := 2 ^ 33) (by decide) (by decide) (by decide)
    (by simp) .nil hg ho hl exProc hr (by decide) (by decide) (by decide) (by decide) ht hfree rfl hf
  refine ⟨d', hd', ?_⟩
  have := C63_shared mergeSorter_isSorter exFloat exJoin readCfg false false grow (ff := 2 ^ 32) (fuel := 2 ^ 40) (k := 2 ^ 33) (by decide) (by decide) (by decide)
    (by simp) .nil hg ho hl exProc hr (by decide) (by decide) (by decide) (by decide) ht hfree rfl hf (A := []) (B := []) (D := [])
    (s := ⟨[47, 116, 47, 112], 0, 22, exText1⟩) (t := ⟨[47, 116, 47, 113], 0, 24, exText2⟩) hfd
    (p1 := []) (w1 := wordChars asciiUni exText1) (r1 := []) (p2 := [['x']]) (w2 := (wordChars asciiUni exText2).drop 1) (r2 := [])
    (by simp) (by decide +kernel) (by decide +kernel) (by decide +kernel)
    (by have := bucketSizes_sum_le asciiUni c (fileDocs exProc.cwd (filesOf exJoin exProc.look [[116]]))
        rw [hnb] at this
        have h2 : numBuckets c = 262144 := by rw [hc]; rfl
        show 5 * (bucketSizes asciiUni c _).sum ≤ 7 * numBuckets c
        rw [h2]; omega) hd' hg' (opts' := [⟨sigmaB, [48], .apart, false⟩]) (by simp [ExtractOpt, exFloat]) rfl rfl (l' := []) (rest := []) (.plain (by simp)) exProc'
    (by decide +kernel) (by simp [sigmaOf, valueOf, exFloat])
  exact this

end Dupi.Props
