import Verif.Props.Run
import Verif.Props.ConfigFile
import Verif.Proof.ConfigJson
/-! # dupi index -c FILE: C72 -/

namespace Dupi.Props
open Spec Cmd Disk

/-- "c" is given, not empty: FILE -/
def ConfigOpt (S : Strconv ℝ) (opts : List Opt) (file : Bytes) : Prop :=
  (∀ o ∈ opts, IndexOpt S o) ∧ valueOf opts [99] = some file ∧ file ≠ []

section
variable (S : Strconv ℝ) (join : Bytes → Bytes → Bytes) (files : Bytes → Option Bytes)

/-- **C72.**  Every JSON text for a usable configuration is read as that configuration. -/
theorem C72_read {c : Config} (hi : Json.Ints c) (hU : Usable Json.codec c) {file t : Bytes} (hf : files file = some t) (ht : ConfigText c t) :
    Cmd.readConfig Json.codec files file = .ok c := by
  unfold Cmd.readConfig
  simp only [hf, bind, Except.bind]
  rw [show Json.codec.dec t = .ok c from Json.unmarshal_text hi ht]
  simp only [hU.check]
  rfl

/-- **C72.**  `dupi index -c FILE PATHS` makes an index with the configuration of FILE, whatever other options there are (except -a), also in front of the verb. -/
theorem C72_index_partial {gopts opts : List Opt} (hg : RootOpts gopts) {file t : Bytes} (ho : ConfigOpt S opts file)
    (ha : Flag.lastBool (opts.map fun o => (o.name, o.value)) [97] = false) {l paths : List Bytes} (hl : Rest l paths) (p : Proc)
    (hr : Readable join p.look paths) {c : Config} (hi : Json.Ints c) (hU : Usable Json.codec c) (hf : files file = some t) (ht : ConfigText c t) :
    indexRun S join (Cmd.readConfig Json.codec files) p (gopts.flatMap Opt.args ++ Verb.index.name :: (opts.flatMap Opt.args ++ l)) =
      some (.ok (.create p.cwd c ((filesOf join p.look paths).filterMap docOf), false)) := by
  obtain ⟨st, h1, h2⟩ := C58_config_partial S ho.1 hl p.cwd (promised join p.env gopts) (Cmd.readConfig Json.codec files) ha file ho.2.2 ho.2.1
  rw [C72_read files hi hU hf ht] at h2
  unfold indexRun
  simp only [C57_runs_partial join p.env hg.1 hg.2 .index, h1, h2, bind, Except.bind, Except.map, doPaths_readable join p.look paths hr, List.nil_append]
  rfl

/-- **C72 is false** with -a: -c does not override it, FILE is not even read.  (The documentation of -c: "config file (overrides all other flags)".) -/
theorem C72_false_add {gopts opts : List Opt} (hg : RootOpts gopts) {file : Bytes} (ho : ConfigOpt S opts file)
    (ha : Flag.lastBool (opts.map fun o => (o.name, o.value)) [97] = true) {l paths : List Bytes} (hl : Rest l paths) (p : Proc)
    (hr : Readable join p.look paths) :
    indexRun S join (Cmd.readConfig Json.codec files) p (gopts.flatMap Opt.args ++ Verb.index.name :: (opts.flatMap Opt.args ++ l)) =
      some (.ok (.append p.cwd (promised join p.env gopts) ((filesOf join p.look paths).filterMap docOf), false)) :=
  C63_add S join _ hg ho.1 ha hl p hr

end

section
variable {u : Uni} {srt : Sorter} (hsrt : IsSorter srt) (S : Strconv ℝ) (join : Bytes → Bytes → Bytes) (files : Bytes → Option Bytes)
  (fused fused' : Bool) (grow : Nat → Nat) {ff fuel k : Nat} (hff : 2 ^ 32 ≤ ff) (hfuel : 2 ^ 32 + 2 ^ 32 + 2 ^ 32 < fuel) (hk : 2 ^ 32 < k)
  {ops : List Disk.Op} {d : Disk} (hm : ∀ op ∈ ops, Made Json.codec op) (hs : Steps u Json.codec srt Disk.empty ops d)
  {gopts opts : List Opt} (hg : RootOpts gopts) {file t : Bytes} (ho : ConfigOpt S opts file)
  (ha : Flag.lastBool (opts.map fun o => (o.name, o.value)) [97] = false) {l paths : List Bytes} (hl : Rest l paths) (p : Proc)
  (hr : Readable join p.look paths) {c : Config} (hi : Json.Ints c) (hU : Usable Json.codec c) (hf : files file = some t) (ht : ConfigText c t)

section
variable (hroot : c.indexRoot.head? = some 47) (hfree : catalogue ops (Spec.place p.cwd c.indexRoot) = none) (hfits : Fits u c (fileDocs p.cwd (filesOf join p.look paths)))
include hsrt hff hfuel hk hm hs hg ho ha hl hr hi hU hf ht hroot hfree hfits

/-- **C72, where it holds**: if IndexRoot in FILE is absolute and no index is there, the run succeeds, and whatever the schedule, `dupi [-r ROOT] extract [options]`
run afterwards, in any working directory from which ROOT leads there, prints the blots of the visible files: for the sequences, shards etc. of FILE. -/
theorem C72_index_extract_partial : (∃ d', IndexRuns u srt S join (Cmd.readConfig Json.codec files) d p (gopts.flatMap Opt.args ++ Verb.index.name :: (opts.flatMap Opt.args ++ l)) d') ∧
    ∀ d', IndexRuns u srt S join (Cmd.readConfig Json.codec files) d p (gopts.flatMap Opt.args ++ Verb.index.name :: (opts.flatMap Opt.args ++ l)) d' →
    ∀ {gopts' opts' : List Opt}, RootOpts gopts' → (∀ o ∈ opts', ExtractOpt S o) → ∀ {l' rest : List Bytes}, Rest l' rest →
    ∀ p' : Proc, Spec.place p'.cwd (promised join p'.env gopts') = Spec.place p.cwd c.indexRoot →
    |sigmaOf S opts'| ≤ 2 ^ 20 →
    ∃ out, extractRun S join Json.codec srt fused fused' grow ff fuel k d' p' (gopts'.flatMap Opt.args ++ Verb.extract.name :: (opts'.flatMap Opt.args ++ l')) =
        some (.ok (if isOn opts' jsonB then extractJson out else if isOn opts' [98] then extractBlots out else extractText out)) ∧
      Prints u c (fileDocs p.cwd (filesOf join p.look paths)) (sigmaOf S opts') out :=
  create_extract hsrt S join (Cmd.readConfig Json.codec files) fused fused' grow hff hfuel hk hm hs (C72_index_partial S join files hg ho ha hl p hr hi hU hf ht) hU hroot hfree hfits

/-- **C72**, with -sigma 0 and not more than 1.4 documents per bucket: two files with one word more than SeqLen (of FILE, any number) in a row in common
are printed on one line. -/
theorem C72_shared_partial {A B D : List Document} {s1 s2 : Document} (hd : fileDocs p.cwd (filesOf join p.look paths) = A ++ s1 :: B ++ s2 :: D)
    {p1 w1 r1 p2 w2 r2 : List (List Char)} (h1 : wordChars u s1.dat = p1 ++ w1 ++ r1) (h2 : wordChars u s2.dat = p2 ++ w2 ++ r2)
    (hlen : w1.length = c.seqLen.toNat + 1) (hw : w1.map (List.map (lowerChar u)) = w2.map (List.map (lowerChar u)))
    (havg : 5 * (bucketSizes u c (fileDocs p.cwd (filesOf join p.look paths))).sum ≤ 7 * numBuckets c) {d' : Disk}
    (hrun : IndexRuns u srt S join (Cmd.readConfig Json.codec files) d p (gopts.flatMap Opt.args ++ Verb.index.name :: (opts.flatMap Opt.args ++ l)) d')
    {gopts' opts' : List Opt} (hg' : RootOpts gopts') (ho' : ∀ o ∈ opts', ExtractOpt S o) (hj' : isOn opts' jsonB = false) (hb' : isOn opts' [98] = false)
    {l' rest : List Bytes} (hl' : Rest l' rest) (p' : Proc) (hp' : Spec.place p'.cwd (promised join p'.env gopts') = Spec.place p.cwd c.indexRoot)
    (hσ : sigmaOf S opts' = 0) :
    ∃ before b line after, extractRun S join Json.codec srt fused fused' grow ff fuel k d' p' (gopts'.flatMap Opt.args ++ Verb.extract.name :: (opts'.flatMap Opt.args ++ l')) =
        some (.ok (before ++ (hex b ++ line.flatMap docText ++ [10]) ++ after)) ∧ (before = [] ∨ before.getLast? = some 10) ∧
      [(⟨s1.path, s1.start, s1.stop, none⟩ : Doc), ⟨s2.path, s2.start, s2.stop, none⟩].Sublist line :=
  create_shared hsrt S join (Cmd.readConfig Json.codec files) fused fused' grow hff hfuel hk hm hs (C72_index_partial S join files hg ho ha hl p hr hi hU hf ht) hU hroot hfree hfits
    hd h1 h2 hlen hw havg hrun hg' ho' hj' hb' hl' p' hp' hσ

end

include hm hs hg ho ha hl hr hi hU hf ht in
omit hsrt hff hfuel hk in
/-- **C72 is false** if IndexRoot in FILE is relative: in a working directory from which it leads somewhere else, where nothing is, extract fails, also if
the root given to it leads to the index. -/
theorem C72_false_relative {d' : Disk} (hrun : IndexRuns u srt S join (Cmd.readConfig Json.codec files) d p (gopts.flatMap Opt.args ++ Verb.index.name :: (opts.flatMap Opt.args ++ l)) d')
    {gopts' opts' : List Opt} (hg' : RootOpts gopts') (ho' : ∀ o ∈ opts', ExtractOpt S o) {l' rest : List Bytes} (hl' : Rest l' rest)
    (p' : Proc) (hp' : Spec.place p'.cwd (promised join p'.env gopts') = Spec.place p.cwd c.indexRoot) (hne : Spec.place p'.cwd c.indexRoot ≠ Spec.place p.cwd c.indexRoot)
    (hfree : catalogue ops (Spec.place p'.cwd c.indexRoot) = none) :
    extractRun S join Json.codec srt fused fused' grow ff fuel k d' p' (gopts'.flatMap Opt.args ++ Verb.extract.name :: (opts'.flatMap Opt.args ++ l')) =
      some (fail .notExist) := by
  obtain ⟨op, e1, e2⟩ := hrun
  rw [C72_index_partial S join files hg ho ha hl p hr hi hU hf ht] at e1
  injection e1 with e1; injection e1 with e1; injection e1 with e1
  subst e1
  have := (C53_false_relative (srt := srt) hU e2 hp' hne ((Steps.shows hm hs).free hfree)).1
  unfold extractRun
  simp only [C57_runs_partial join p'.env hg'.1 hg'.2 .extract, Flag.parse_opts (fun o h => (ho' o h).fine) hl', this, fail]

end

/-! ## Non-vacuity -/

/-- sequences of 2 words, every second word of a sequence -/
def exFileConfig (root : Bytes) : Config := ⟨root, 2, 1, 1, 7, ⟨wordsSimple⟩, ⟨1, 2⟩⟩

theorem exFile_ints (root : Bytes) : Json.Ints (exFileConfig root) := by
  constructor <;> constructor <;> simp [exFileConfig]

theorem exFile_usable {root : Bytes} (h : IsText root) : Usable Json.codec (exFileConfig root) :=
  usable_json _ (exFile_ints root) ⟨by simp [exFileConfig], by simp [exFileConfig], by simp [exFileConfig], rfl⟩ (by simp [exFileConfig]) (by simp [exFileConfig])
    (by simp [exFileConfig]) (by simp [exFileConfig]) h

/-- JSON for it, with the members in another order, in another case and with one more -/
def exFileText (root : String) : Bytes :=
  Json.object 0 [Json.member "BLOTconfig" (Json.object 1 [Json.member "interleave" (Json.encNat 2), Json.member "ſeqLen" (Json.encNat 1)]),
    Json.member "comment" (Json.array 1 [Json.encNat 5]), Json.member "SeqLen" (Json.encNat 2), Json.member "docFlushRate" (Json.encNat 7),
    Json.member "IndexRoot" (Json.encStr (utf8 root.toList)), Json.member "numShards" (Json.encNat 1), Json.member "NumShatters" (Json.encNat 1),
    Json.member "TokenConfig" (Json.object 1 [Json.member "Name" (Json.encStr (utf8 "words.simple".toList))])]

theorem exFile_text (root : String) : ConfigText (exFileConfig (utf8 root.toList)) (exFileText root) := by
  have str (s : String) : JText (.str s.toList) (Json.encStr (utf8 s.toList)) := by
    rw [← Json.key_utf8]; exact Json.key_text s
  have int (n : Nat) : IntIs n (.num (Json.encNat n)) := ⟨n, _, Json.nat_numeral n, .inl ⟨rfl, rfl⟩⟩
  have same (a b : String) (h : a.toList.map foldChar = b.toList.map foldChar) : SameKey a.toList b.toList := h
  have hblot : Spec.Describes (blotFields ⟨1, 2⟩) [("interleave".toList, .num (Json.encNat 2)), ("ſeqLen".toList, .num (Json.encNat 1))] := by
    constructor
    · simp only [List.mem_cons, List.not_mem_nil, or_false, forall_eq_or_imp, forall_eq]
      exact ⟨.inr (.inr ⟨intField "Interleave" 2, by simp [blotFields], same _ _ (by decide +kernel), int 2⟩),
        .inr (.inr ⟨intField "SeqLen" 1, by simp [blotFields], same _ _ (by decide +kernel), int 1⟩)⟩
    · simp only [blotFields, List.mem_cons, List.not_mem_nil, or_false, forall_eq_or_imp, forall_eq]
      exact ⟨.inr ⟨_, .inr rfl, same _ _ (by decide +kernel), int 1⟩, .inr ⟨_, .inl rfl, same _ _ (by decide +kernel), int 2⟩⟩
  have htok : Spec.Describes (tokenFields ⟨wordsSimple⟩) [("Name".toList, .str "words.simple".toList)] := by
    have hw : StrIs wordsSimple (.str "words.simple".toList) := ⟨_, rfl, by decide +kernel⟩
    constructor
    · simp only [List.mem_cons, List.not_mem_nil, or_false, forall_eq]
      exact .inr (.inr ⟨strField "Name" wordsSimple, by simp [tokenFields], rfl, hw⟩)
    · simp only [tokenFields, List.mem_cons, List.not_mem_nil, or_false, forall_eq]
      exact .inr ⟨_, rfl, same _ _ rfl, hw⟩
  refine ⟨[("BLOTconfig".toList, .obj [("interleave".toList, .num (Json.encNat 2)), ("ſeqLen".toList, .num (Json.encNat 1))]),
    ("comment".toList, .arr [.num (Json.encNat 5)]), ("SeqLen".toList, .num (Json.encNat 2)), ("docFlushRate".toList, .num (Json.encNat 7)),
    ("IndexRoot".toList, .str root.toList), ("numShards".toList, .num (Json.encNat 1)), ("NumShatters".toList, .num (Json.encNat 1)),
    ("TokenConfig".toList, .obj [("Name".toList, .str "words.simple".toList)])], ⟨[], exFileText root, [], by simp, Json.blank_nil, ?_, Json.blank_nil⟩, ?_, ?_⟩
  · exact Json.object_text 0 (.cons (Json.member_text _ (Json.object_text 1 (.cons (Json.member_text _ (Json.nat_text 2)) (.cons (Json.member_text _ (Json.nat_text 1)) .nil)) (by simp)))
      (.cons (Json.member_text _ (Json.array_text 1 (.cons (Json.nat_text 5) .nil))) (.cons (Json.member_text _ (Json.nat_text 2)) (.cons (Json.member_text _ (Json.nat_text 7))
      (.cons (Json.member_text _ (str root)) (.cons (Json.member_text _ (Json.nat_text 1)) (.cons (Json.member_text _ (Json.nat_text 1))
      (.cons (Json.member_text _ (Json.object_text 1 (.cons (Json.member_text _ (str "words.simple")) .nil) (by simp))) .nil)))))))) (by simp)
  · simp [depth, depthm, depths]
  · have a1 : (objField "BlotConfig" (blotFields ⟨1, 2⟩)).holds (.obj [("interleave".toList, .num (Json.encNat 2)), ("ſeqLen".toList, .num (Json.encNat 1))]) := ⟨_, rfl, hblot⟩
    have a2 : (objField "TokenConfig" (tokenFields ⟨wordsSimple⟩)).holds (.obj [("Name".toList, .str "words.simple".toList)]) := ⟨_, rfl, htok⟩
    have a3 : StrIs (utf8 root.toList) (.str root.toList) := ⟨_, rfl, rfl⟩
    constructor
    · simp only [List.mem_cons, List.not_mem_nil, or_false, forall_eq_or_imp, forall_eq]
      refine ⟨.inr (.inr ⟨_, ?_, same "BlotConfig" _ (by decide +kernel), a1⟩), .inr (.inl ?_), .inr (.inr ⟨intField "SeqLen" 2, ?_, rfl, int 2⟩),
        .inr (.inr ⟨intField "DocFlushRate" 7, ?_, same _ _ (by decide +kernel), int 7⟩), .inr (.inr ⟨strField "IndexRoot" (utf8 root.toList), ?_, rfl, a3⟩),
        .inr (.inr ⟨intField "NumShards" 1, ?_, same _ _ (by decide +kernel), int 1⟩), .inr (.inr ⟨intField "NumShatters" 1, ?_, rfl, int 1⟩),
        .inr (.inr ⟨_, ?_, same "TokenConfig" _ rfl, a2⟩)⟩
      all_goals first | (simp [configFields, exFileConfig]; done) | skip
      simp only [configFields, List.mem_cons, List.not_mem_nil, or_false, forall_eq_or_imp, forall_eq, strField, intField, objField]
      unfold SameKey
      decide +kernel
    · simp only [configFields, exFileConfig, List.mem_cons, List.not_mem_nil, or_false, forall_eq_or_imp, forall_eq]
      exact ⟨.inr ⟨("IndexRoot".toList, _), by simp, rfl, a3⟩, .inr ⟨("SeqLen".toList, _), by simp, rfl, int 2⟩,
        .inr ⟨("numShards".toList, .num (Json.encNat 1)), by simp, same "NumShards" _ (by decide +kernel), int 1⟩,
        .inr ⟨("NumShatters".toList, .num (Json.encNat 1)), by simp, rfl, int 1⟩,
        .inr ⟨("docFlushRate".toList, _), by simp, same "DocFlushRate" _ (by decide +kernel), int 7⟩, .inr ⟨("TokenConfig".toList, _), by simp, rfl, a2⟩,
        .inr ⟨("BLOTconfig".toList, _), by simp, same "BlotConfig" _ (by decide +kernel), a1⟩⟩

/-- a file "f" with the configuration, with an absolute root and with a relative one -/
def exConfigFiles (root : String) (p : Bytes) : Option Bytes := if p = [102] then some (exFileText root) else none

/-- `dupi -r y index -c=f -n 9 t` -/
def exConfigArgs : List Bytes := [[45, 114], [121], Verb.index.name, [45, 99, 61, 102], [45, 110], [57], [116]]

noncomputable def exFloat' : Strconv ℝ := ⟨fun b => if b = [57] then some 9 else none, fun b => if b = [48] then some 0 else none⟩

theorem exFile_docs : fileDocs exProc.cwd (filesOf exJoin exProc.look [[116]]) = [⟨[47, 116, 47, 112], 0, 22, exText1⟩, ⟨[47, 116, 47, 113], 0, 24, exText2⟩] := by
  decide +kernel

theorem exFile_readable : Readable exJoin exProc.look [[116]] := by
  intro p hp
  rw [List.mem_singleton] at hp
  subst hp
  refine ⟨_, rfl, ?_, ?_⟩
  · simp [Open, OpenAll, exProc]
  · intro f hf
    have : f ∈ [([116, 47, 112], FileRead.data exText1), ([116, 47, 113], FileRead.data exText2)] := by
      revert hf
      simp [exProc, visible, visibleAll, Hidden, exJoin]
    simp only [List.mem_cons, List.not_mem_nil, or_false] at this
    rcases this with rfl | rfl <;> exact ⟨_, rfl⟩

theorem exFile_blots (root : Bytes) : numBlots asciiUni (exFileConfig root) (fileDocs exProc.cwd (filesOf exJoin exProc.look [[116]])) = 19 := by
  rw [exFile_docs]
  show numBlots asciiUni (exFileConfig []) _ = 19
  decide +kernel

theorem exFile_fits (root : Bytes) : Fits asciiUni (exFileConfig root) (fileDocs exProc.cwd (filesOf exJoin exProc.look [[116]])) := by
  refine ⟨?_, ?_, by rw [exFile_blots]; decide⟩
  · rw [exFile_docs]; decide
  · rw [exFile_docs]; decide

theorem exConfig_root : RootOpts [⟨[114], [121], .apart, false⟩] := ⟨by simp [RootOpt], by simp [Apart]; intro v; cases v <;> decide⟩

theorem exConfig_opts : ConfigOpt exFloat' [⟨[99], [102], .equals, false⟩, ⟨[110], [57], .apart, false⟩] [102] :=
  ⟨by simp [IndexOpt, exFloat'], rfl, by simp⟩

/-- the index is made at "/x", not at "/y", and the files are printed on a line for sequences of 2 words -/
theorem C72_nonvacuous (grow : Nat → Nat) : ∃ d', IndexRuns asciiUni mergeSorter exFloat' exJoin (Cmd.readConfig Json.codec (exConfigFiles "/x")) Disk.empty exProc exConfigArgs d' ∧
    ∃ before b line after, extractRun exFloat' exJoin Json.codec mergeSorter false false grow (2 ^ 32) (2 ^ 40) (2 ^ 33) d' exProc' exExtractArgs =
        some (.ok (before ++ (hex b ++ line.flatMap docText ++ [10]) ++ after)) ∧ (before = [] ∨ before.getLast? = some 10) ∧
      [(⟨[47, 116, 47, 112], 0, 22, none⟩ : Doc), ⟨[47, 116, 47, 113], 0, 24, none⟩].Sublist line := by
  have hg' : RootOpts [⟨[114], [47, 120], .equals, false⟩] := ⟨by simp [RootOpt], by simp [Apart]⟩
  have hl : Rest [[116]] [[116]] := .plain (by simp)
  have hU := exFile_usable (root := utf8 "/x".toList) ⟨_, rfl⟩
  have hx : utf8 "/x".toList = [47, 120] := by decide +kernel
  obtain ⟨⟨d', hd'⟩, _⟩ := C72_index_extract_partial mergeSorter_isSorter exFloat' exJoin (exConfigFiles "/x") false false grow (ff := 2 ^ 32) (fuel := 2 ^ 40) (k := 2 ^ 33)
    (by decide) (by decide) (by decide) (ops := []) (by simp) .nil exConfig_root exConfig_opts rfl hl exProc exFile_readable (exFile_ints _) hU rfl (exFile_text "/x")
    (by rw [exFileConfig, hx]; rfl) rfl (exFile_fits _)
  refine ⟨d', hd', ?_⟩
  exact C72_shared_partial mergeSorter_isSorter exFloat' exJoin (exConfigFiles "/x") false false grow (ff := 2 ^ 32) (fuel := 2 ^ 40) (k := 2 ^ 33)
    (by decide) (by decide) (by decide) (ops := []) (by simp) .nil exConfig_root exConfig_opts rfl hl exProc exFile_readable (exFile_ints _) hU rfl (exFile_text "/x")
    (by rw [exFileConfig, hx]; rfl) rfl (exFile_fits _) (A := []) (B := []) (D := [])
    (s1 := ⟨[47, 116, 47, 112], 0, 22, exText1⟩) (s2 := ⟨[47, 116, 47, 113], 0, 24, exText2⟩) exFile_docs
    (p1 := []) (w1 := (wordChars asciiUni exText1).take 3) (r1 := (wordChars asciiUni exText1).drop 3) (p2 := [['x']]) (w2 := ((wordChars asciiUni exText2).drop 1).take 3)
    (r2 := (wordChars asciiUni exText2).drop 4)
    (by simp) (by decide +kernel) (by decide +kernel) (by decide +kernel)
    (by have := bucketSizes_sum_le asciiUni (exFileConfig (utf8 "/x".toList)) (fileDocs exProc.cwd (filesOf exJoin exProc.look [[116]]))
        rw [exFile_blots] at this
        have h2 : numBuckets (exFileConfig (utf8 "/x".toList)) = 65536 := rfl
        rw [h2]; omega) hd' hg' (opts' := [⟨sigmaB, [48], .apart, false⟩]) (by simp [ExtractOpt, exFloat']) rfl rfl (l' := []) (rest := []) (.plain (by simp)) exProc'
    (by rw [exFileConfig, hx]; decide +kernel) (by simp [sigmaOf, valueOf, exFloat'])

/-- with "x" for "/x" the index cannot be opened in the directory "/w" -/
theorem C72_false_relative_ex (grow : Nat → Nat) : ∃ d', IndexRuns asciiUni mergeSorter exFloat' exJoin (Cmd.readConfig Json.codec (exConfigFiles "x")) Disk.empty exProc exConfigArgs d' ∧
    extractRun exFloat' exJoin Json.codec mergeSorter false false grow (2 ^ 32) (2 ^ 40) (2 ^ 33) d' exProc' exExtractArgs = some (fail .notExist) := by
  have hg' : RootOpts [⟨[114], [47, 120], .equals, false⟩] := ⟨by simp [RootOpt], by simp [Apart]⟩
  have hl : Rest [[116]] [[116]] := .plain (by simp)
  have hU := exFile_usable (root := utf8 "x".toList) ⟨_, rfl⟩
  have hx : utf8 "x".toList = [120] := by decide +kernel
  have h0 := C72_index_partial exFloat' exJoin (exConfigFiles "x") exConfig_root exConfig_opts rfl hl exProc exFile_readable (exFile_ints _) hU rfl (exFile_text "x")
  obtain ⟨d', hd'⟩ := create_possible (u := asciiUni) (srt := mergeSorter) (ops := []) exFloat' exJoin _ (by simp) .nil h0 hU rfl (exFile_fits _)
  exact ⟨d', hd', C72_false_relative exFloat' exJoin (exConfigFiles "x") false false grow (ops := []) (by simp) .nil exConfig_root exConfig_opts rfl hl exProc exFile_readable
    (exFile_ints _) hU rfl (exFile_text "x") hd' hg' (opts' := [⟨sigmaB, [48], .apart, false⟩]) (by simp [ExtractOpt, exFloat']) (l' := []) (rest := []) (.plain (by simp)) exProc'
    (by rw [exFileConfig, hx]; decide +kernel) (by rw [exFileConfig, hx]; decide +kernel) rfl⟩

end Dupi.Props
