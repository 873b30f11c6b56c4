import Verif.Props.Run
import Verif.Proof.JsonWrite
import Verif.Spec.JsonOut
/-! # C70: what dupi extract -json prints -/

namespace Dupi.Props
open Spec Cmd Disk

/-- what is shown of a document -/
def fields (d : Doc) : Bytes × Nat × Nat := (d.path, d.start.toNat, d.stop.toNat)

theorem doc_text (n : Nat) (d : Doc) : ∃ v, DocJson (fields d) v ∧ JText v (Json.doc n d) := by
  obtain ⟨cs, h1, h2⟩ := Json.str_text d.path
  exact ⟨_, ⟨cs, _, _, h1, Json.nat_numeral _, Json.nat_numeral _, rfl⟩,
    Json.object_text n (.cons (Json.member_text "Path" h2) (.cons (Json.member_text "Start" (Json.nat_text _)) (.cons (Json.member_text "End" (Json.nat_text _)) .nil))) (by simp)⟩

theorem docs_text (n : Nat) (l : List Doc) : ∃ vs, List.Forall₂ DocJson (l.map fields) vs ∧ List.Forall₂ JText vs (l.map (Json.doc n)) := by
  induction l with
  | nil => exact ⟨[], .nil, .nil⟩
  | cons d l ih =>
    obtain ⟨vs, h1, h2⟩ := ih
    obtain ⟨v, g1, g2⟩ := doc_text n d
    exact ⟨v :: vs, .cons g1 h1, .cons g2 h2⟩

theorem blot_text (n : Nat) {b : Blot} (hb : b.vis ≠ []) : ∃ v, BlotJson b.blot.toNat (b.vis.map fields) v ∧ JText v (Json.blot n b) := by
  obtain ⟨vs, h1, h2⟩ := docs_text (n + 2) b.vis
  refine ⟨_, ⟨_, vs, Json.nat_numeral _, h1, rfl⟩, ?_⟩
  have hd : b.docs.isSome := by
    unfold Blot.vis at hb
    cases h : b.docs with
    | none => rw [h] at hb; exact absurd rfl hb
    | some x => rfl
  obtain ⟨s, hs⟩ := Option.isSome_iff_exists.mp hd
  unfold Json.blot
  rw [hs]
  exact Json.object_text n (.cons (Json.member_text "Blot" (Json.nat_text _)) (.cons (Json.member_text "Docs" (Json.array_text (n + 1) h2)) .nil)) (by simp)

/-- the text of an array with one blot -/
def Told (b : Nat) (docs : List (Bytes × Nat × Nat)) (t : Bytes) : Prop := ∃ v, BlotJson b docs v ∧ JText (.arr [v]) t

theorem blots_told {b : Blot} (hb : b.vis ≠ []) : Told b.blot.toNat (b.vis.map fields) (Json.blots [b]) := by
  obtain ⟨v, h1, h2⟩ := blot_text 1 hb
  exact ⟨v, h1, Json.array_text 0 (.cons h2 .nil)⟩

/-! ## unambiguous -/

theorem numeral_inj {b n n' : Nat} {t : Bytes} (h : Numeral b n t) (h' : Numeral b n' t) : n = n' := h.2.2.1.symm.trans h'.2.2.1

theorem docJson_inj {d d' : Bytes × Nat × Nat} {v : JVal} (h : DocJson d v) (h' : DocJson d' v) (ht : IsText d.1) (ht' : IsText d'.1) : d = d' := by
  obtain ⟨cs, s, e, h1, h2, h3, rfl⟩ := h
  obtain ⟨cs', s', e', h1', h2', h3', he⟩ := h'
  simp only [JVal.obj.injEq, List.cons.injEq, Prod.mk.injEq, true_and, and_true, JVal.str.injEq, JVal.num.injEq] at he
  obtain ⟨rfl, rfl, rfl⟩ := he
  obtain ⟨x, hx⟩ := ht
  obtain ⟨x', hx'⟩ := ht'
  have e1 := Json.repair_text h1 hx
  have e2 := Json.repair_text h1' hx'
  refine Prod.ext ?_ (Prod.ext (numeral_inj h2 h2') (numeral_inj h3 h3'))
  rw [hx, hx', ← e1, ← e2]

theorem docsJson_inj {l l' : List (Bytes × Nat × Nat)} {vs : List JVal} (h : List.Forall₂ DocJson l vs) (h' : List.Forall₂ DocJson l' vs)
    (ht : ∀ d ∈ l, IsText d.1) (ht' : ∀ d ∈ l', IsText d.1) : l = l' := by
  induction h generalizing l' with
  | nil => cases h'; rfl
  | cons h1 _ ih =>
    cases h' with
    | cons h1' h2' =>
      rw [docJson_inj h1 h1' (ht _ (by simp)) (ht' _ (by simp)), ih h2' (fun d hd => ht d (by simp [hd])) (fun d hd => ht' d (by simp [hd]))]

theorem told_starts {b : Nat} {docs : List (Bytes × Nat × Nat)} {t : Bytes} (h : Told b docs t) : ∃ t', t = 91 :: t' := by
  obtain ⟨v, _, h⟩ := h
  cases h with
  | arr _ => exact ⟨_, rfl⟩

/-- several such texts one after the other -/
def AllTold (bs : List (Nat × List (Bytes × Nat × Nat))) (ts : List Bytes) : Prop := List.Forall₂ (fun b t => Told b.1 b.2 t) bs ts

theorem allTold_ends {bs : List (Nat × List (Bytes × Nat × Nat))} {ts : List Bytes} (h : AllTold bs ts) : Json.Ends ts.flatten := by
  cases h with
  | nil => intro b hb; cases hb
  | cons h1 _ =>
    obtain ⟨t', rfl⟩ := told_starts h1
    intro b hb
    simp only [List.flatten_cons, List.cons_append, List.head?_cons, Option.mem_def, Option.some.injEq] at hb
    subst hb
    decide

theorem allTold_inj {bs bs' : List (Nat × List (Bytes × Nat × Nat))} {ts ts' : List Bytes} (h : AllTold bs ts) (h' : AllTold bs' ts') (he : ts.flatten = ts'.flatten)
    (ht : ∀ b ∈ bs, ∀ d ∈ b.2, IsText d.1) (ht' : ∀ b ∈ bs', ∀ d ∈ b.2, IsText d.1) : bs = bs' := by
  induction h generalizing bs' ts' with
  | nil =>
    cases h' with
    | nil => rfl
    | cons h1 _ =>
      obtain ⟨t', rfl⟩ := told_starts h1
      cases he
  | @cons b t bs ts h1 h2 ih =>
    cases h' with
    | nil =>
      obtain ⟨t', rfl⟩ := told_starts h1
      cases he
    | @cons b' t' bs' ts' h1' h2' =>
      obtain ⟨v, ⟨n, ds, g1, g2, rfl⟩, g3⟩ := h1
      obtain ⟨v', ⟨n', ds', g1', g2', rfl⟩, g3'⟩ := h1'
      rw [List.flatten_cons, List.flatten_cons] at he
      obtain ⟨e1, e2⟩ := Json.text_unique g3 g3' (allTold_ends h2) (allTold_ends h2') he
      simp only [JVal.arr.injEq, List.cons.injEq, JVal.obj.injEq, Prod.mk.injEq, true_and, and_true, JVal.num.injEq] at e1
      obtain ⟨rfl, rfl⟩ := e1
      rw [ih h2' e2 (fun b hb => ht b (by simp [hb])) (fun b hb => ht' b (by simp [hb]))]
      congr 1
      exact Prod.ext (numeral_inj g1 g1') (docsJson_inj g2 g2' (ht b (by simp)) (ht' b' (by simp)))

/-- texts of arrays one after the other are no JSON text, except if there is one -/
theorem allTold_json {bs : List (Nat × List (Bytes × Nat × Nat))} {ts : List Bytes} (h : AllTold bs ts) : (∃ v, IsJson v ts.flatten) ↔ bs.length = 1 := by
  constructor
  · rintro ⟨v, w, s, w', he, hw, hs, hw'⟩
    have hst := (Json.text_read hs).starts
    cases h with
    | nil =>
      have := Json.starts_length hst
      have he := congrArg List.length he
      simp only [List.flatten_nil, List.length_nil, List.length_append] at he
      omega
    | @cons b t bs ts h1 h2 =>
      obtain ⟨t', rfl⟩ := told_starts h1
      obtain ⟨v1, _, g⟩ := h1
      have := congrArg Json.skipWs he
      rw [Json.skip_starts hw hst, List.flatten_cons, List.cons_append, Json.skipWs_cons _ _ (by decide)] at this
      obtain ⟨_, e2⟩ := Json.text_unique g hs (allTold_ends h2) (Json.Blank.ends hw') this
      cases h2 with
      | nil => rfl
      | cons h1' _ =>
        obtain ⟨t'', rfl⟩ := told_starts h1'
        rw [← e2] at hw'
        have := hw' 91 (by simp)
        exact absurd this (by decide)
  · intro h1
    obtain ⟨b, rfl⟩ := List.length_eq_one_iff.mp h1
    cases h with
    | cons h1 h2 =>
      cases h2
      obtain ⟨v, _, g⟩ := h1
      exact ⟨_, [], _, [], by simp, Json.blank_nil, g, Json.blank_nil⟩

/-! ## extract -json -/

/-- a blot with the fields of its documents -/
def entry (b : Blot) : Nat × List (Bytes × Nat × Nat) := (b.blot.toNat, b.vis.map fields)

theorem extractJson_told {out : List Blot} (h : ∀ b ∈ out, b.vis ≠ []) : ∃ ts, extractJson out = ts.flatten ∧ AllTold (out.map entry) ts := by
  refine ⟨out.map fun b => Json.blots [b], by rw [extractJson, List.flatMap_def], ?_⟩
  induction out with
  | nil => exact .nil
  | cons b out ih => exact .cons (blots_told (h b (by simp))) (ih fun x hx => h x (by simp [hx]))

/-- **C70.**  What is printed tells which blots were found, in which order, and the documents of each, if the paths are texts. -/
theorem C70_told {out out' : List Blot} (h : ∀ b ∈ out, b.vis ≠ []) (h' : ∀ b ∈ out', b.vis ≠ []) (ht : ∀ b ∈ out, ∀ d ∈ b.vis, IsText d.path)
    (ht' : ∀ b ∈ out', ∀ d ∈ b.vis, IsText d.path) (he : extractJson out = extractJson out') : out.map entry = out'.map entry := by
  obtain ⟨ts, e1, e2⟩ := extractJson_told h
  obtain ⟨ts', e1', e2'⟩ := extractJson_told h'
  have key {out : List Blot} (ht : ∀ b ∈ out, ∀ d ∈ b.vis, IsText d.path) : ∀ b ∈ out.map entry, ∀ d ∈ b.2, IsText d.1 := by
    intro b hb d hd
    obtain ⟨x, hx, rfl⟩ := List.mem_map.mp hb
    obtain ⟨y, hy, rfl⟩ := List.mem_map.mp hd
    exact ht x hx y hy
  exact allTold_inj e2 e2' (by rw [← e1, ← e1', he]) (key ht) (key ht')

/-- the path, the start and the end of a document -/
def docFields (s : Document) : Bytes × Nat × Nat := (s.path, s.start.toNat, s.stop.toNat)

section
variable {u : Uni} {J : CfgCodec} {srt : Sorter} (hsrt : IsSorter srt) (S : Strconv ℝ) (join : Bytes → Bytes → Bytes) (fused fused' : Bool) (grow : Nat → Nat)
  {ff fuel k : Nat} (hff : 2 ^ 32 ≤ ff) (hfuel : 2 ^ 32 + 2 ^ 32 + 2 ^ 32 < fuel) (hk : 2 ^ 32 < k)
include hsrt hff hfuel hk

/-- **C70** (partial: see the next).  After any operations on a disk, `dupi [-r ROOT] extract -json` prints for each blot it finds an array with that blot and its
documents.  All in all this is a JSON text if and only if it finds exactly one. -/
theorem C70_json_partial {ops : List Op} {d : Disk} (hm : ∀ op ∈ ops, Made J op) (hs : Steps u J srt Disk.empty ops d)
    {gopts opts : List Opt} (hg : RootOpts gopts) (ho : ∀ o ∈ opts, ExtractOpt S o) (hj : isOn opts jsonB = true) {l rest : List Bytes} (hl : Rest l rest) (p : Proc)
    {c : Config} {h : Sessions} (hc : catalogue ops (Spec.place p.cwd (promised join p.env gopts)) = some (c, h)) (hf : Fits u c (documents h))
    (hσ : |sigmaOf S opts| ≤ 2 ^ 20) :
    ∃ out ts, extractRun S join J srt fused fused' grow ff fuel k d p (gopts.flatMap Opt.args ++ Verb.extract.name :: (opts.flatMap Opt.args ++ l)) = some (.ok ts.flatten) ∧
      Prints u c (documents h) (sigmaOf S opts) out ∧
      List.Forall₂ (fun b t => ∃ v, BlotJson b.blot.toNat ((found u c (documents h) b.blot.toNat).map docFields) v ∧ JText (.arr [v]) t) out ts ∧
      ((∃ v, IsJson v ts.flatten) ↔ out.length = 1) := by
  obtain ⟨out, h1, h2⟩ := extract_any hsrt S join fused fused' grow hff hfuel hk hm hs hg ho hl p hc hf hσ
  have hne : ∀ b ∈ out, b.vis ≠ [] := fun b hb h => by have := (h2.sound b hb).2.2.1; rw [h] at this; simp at this
  obtain ⟨ts, e1, e2⟩ := extractJson_told hne
  refine ⟨out, ts, by rw [h1, hj, ← e1]; rfl, h2, ?_, by rw [allTold_json e2, List.length_map]⟩
  rw [AllTold, List.forall₂_map_left_iff] at e2
  have : ∀ b ∈ out, b.vis.map fields = (found u c (documents h) b.blot.toNat).map docFields := by
    intro b hb
    rw [(h2.sound b hb).2.1, List.map_map]
    rfl
  clear h1 h2 e1 hne
  induction e2 with
  | nil => exact .nil
  | cons g1 g2 ih =>
    refine .cons ?_ (ih fun b hb => this b (by simp [hb]))
    have := this _ (List.mem_cons_self ..)
    rw [← this]
    exact g1

end

/-! ## Non-vacuity and counterexamples -/

/-- paths that are not UTF-8 are confused -/
theorem C70_false_told : ∃ out out' : List Blot, (∀ b ∈ out, b.vis ≠ []) ∧ (∀ b ∈ out', b.vis ≠ []) ∧ extractJson out = extractJson out' ∧ out.map entry ≠ out'.map entry :=
  ⟨[⟨1, some ⟨[⟨[47, 0xFF], 0, 1, none⟩, ⟨[47, 97], 0, 1, none⟩], []⟩⟩], [⟨1, some ⟨[⟨[47, 0xFE], 0, 1, none⟩, ⟨[47, 97], 0, 1, none⟩], []⟩⟩],
    by decide, by decide, by decide +kernel, by decide⟩

/-- a directory "t" with files "p" and "q", both "x A B C D E F G H I J K!" -/
def exJsonProc : Proc := ⟨[47], ⟨[], []⟩, fun p =>
  if p = [116] then ([116], some (.dir (some [([112], .file (.data exText2)), ([113], .file (.data exText2))]))) else (p, none)⟩

/-- `dupi -r=/x extract -json -sigma 0` -/
def exJsonArgs : List Bytes := [[45, 114, 61, 47, 120], Verb.extract.name, [45] ++ jsonB, [45] ++ sigmaB, [48]]

/-- `dupi index` of two files with two blots in common, then `dupi extract -json`: two arrays, and no JSON text.  Every condition of the theorems is met here. -/
theorem C70_false_json (readCfg : Bytes → M Config) (grow : Nat → Nat) : ∃ d', IndexRuns asciiUni mergeSorter exFloat exJoin readCfg Disk.empty exJsonProc exIndexArgs d' ∧
    ∃ t, extractRun exFloat exJoin Json.codec mergeSorter false false grow (2 ^ 32) (2 ^ 40) (2 ^ 33) d' exProc' exJsonArgs = some (.ok t) ∧ (¬ ∃ v, IsJson v t) ∧
      ∃ t1 t2 rest v1 v2, t = t1 ++ t2 ++ rest ∧ JText (.arr [v1]) t1 ∧ JText (.arr [v2]) t2 := by
  have hg : RootOpts [⟨[114], [120], .apart, false⟩] := ⟨by simp [RootOpt], by simp [Apart]; intro v; cases v <;> decide⟩
  have hg' : RootOpts [⟨[114], [47, 120], .equals, false⟩] := ⟨by simp [RootOpt], by simp [Apart]⟩
  have ho : NewIndex exFloat [] := ⟨by simp, rfl, rfl, rfl⟩
  have hl : Rest [[116]] [[116]] := .plain (by simp)
  have hr : Readable exJoin exJsonProc.look [[116]] := by
    intro p hp
    rw [List.mem_singleton] at hp
    subst hp
    refine ⟨_, rfl, ?_, ?_⟩
    · simp [Open, OpenAll, exJsonProc]
    · intro f hf
      have : f ∈ [([116, 47, 112], FileRead.data exText2), ([116, 47, 113], FileRead.data exText2)] := by
        revert hf
        simp [exJsonProc, visible, visibleAll, Hidden, exJoin]
      simp only [List.mem_cons, List.not_mem_nil, or_false] at this
      rcases this with rfl | rfl <;> exact ⟨_, rfl⟩
  have hfd : fileDocs exJsonProc.cwd (filesOf exJoin exJsonProc.look [[116]]) = [⟨[47, 116, 47, 112], 0, 24, exText2⟩, ⟨[47, 116, 47, 113], 0, 24, exText2⟩] := by
    decide +kernel
  let c : Config := plainConfig (absPath exJsonProc.cwd (promised exJoin exJsonProc.env [⟨[114], [120], .apart, false⟩])) (intOf exFloat [] [110] 4) (intOf exFloat [] [115] 4)
  have hc : c = plainConfig [47, 120] 4 4 := by
    have : absPath exJsonProc.cwd (promised exJoin exJsonProc.env [⟨[114], [120], .apart, false⟩]) = [47, 120] := by decide +kernel
    simp only [c, this]; rfl
  have hnb : numBlots asciiUni c (fileDocs exJsonProc.cwd (filesOf exJoin exJsonProc.look [[116]])) = 4 := by
    rw [hfd, hc]; decide +kernel
  have hf : Fits asciiUni c (fileDocs exJsonProc.cwd (filesOf exJoin exJsonProc.look [[116]])) := by
    refine ⟨?_, ?_, by rw [hnb]; decide⟩
    · rw [hfd]; decide
    · rw [hfd]; decide
  have ht : IsText (absPath exJsonProc.cwd (promised exJoin exJsonProc.env [⟨[114], [120], .apart, false⟩])) := isText_iff.mpr (by decide +kernel)
  have hfree : catalogue [] (Spec.place exJsonProc.cwd (promised exJoin exJsonProc.env [⟨[114], [120], .apart, false⟩])) = none := rfl
  obtain ⟨⟨d', hd'⟩, key⟩ := index_extract mergeSorter_isSorter exFloat exJoin readCfg false false grow (ff := 2 ^ 32) (fuel := 2 ^ 40) (k := 2 ^ 33) (by decide) (by decide) (by decide)
    (by simp) .nil hg ho hl exJsonProc hr (by decide) (by decide) (by decide) (by decide) ht hfree rfl hf
  refine ⟨d', hd', ?_⟩
  have hσ : sigmaOf exFloat [⟨jsonB, Flag.trueB, .bare, false⟩, ⟨sigmaB, [48], .apart, false⟩] = 0 := by simp [sigmaOf, valueOf, exFloat, jsonB, sigmaB]
  obtain ⟨out, e1, e2⟩ := key d' hd' hg' (opts' := [⟨jsonB, Flag.trueB, .bare, false⟩, ⟨sigmaB, [48], .apart, false⟩]) (by simp [ExtractOpt, exFloat]) (l' := []) (rest := [])
    (.plain (by simp)) exProc' (by decide +kernel) (by rw [hσ, abs_zero]; positivity)
  have hU : Usable Json.codec c := plainConfig_usable ht (by decide) (by decide) (by decide) (by decide)
  have hN : numBuckets c = 262144 := by rw [hc]; rfl
  have havg : 5 * (bucketSizes asciiUni c (fileDocs exJsonProc.cwd (filesOf exJoin exJsonProc.look [[116]]))).sum ≤ 7 * numBuckets c := by
    have := bucketSizes_sum_le asciiUni c (fileDocs exJsonProc.cwd (filesOf exJoin exJsonProc.look [[116]]))
    rw [hnb] at this
    rw [hN]; omega
  have m1 : (11 : UInt32) ∈ out.map Blot.blot := e2.all hU hσ havg (by rw [hN]; decide) (by rw [hfd]; show 2 ≤ (found asciiUni c _ _).length; rw [hc]; decide +kernel)
  have m2 : (1 : UInt32) ∈ out.map Blot.blot := e2.all hU hσ havg (by rw [hN]; decide) (by rw [hfd]; show 2 ≤ (found asciiUni c _ _).length; rw [hc]; decide +kernel)
  have hne : ∀ b ∈ out, b.vis ≠ [] := fun b hb h => by have := (e2.sound b hb).2.2.1; rw [h] at this; simp at this
  obtain ⟨ts, g1, g2⟩ := extractJson_told hne
  refine ⟨extractJson out, e1, ?_, ?_⟩
  · rw [g1, allTold_json g2, List.length_map]
    intro h1
    obtain ⟨b, rfl⟩ := List.length_eq_one_iff.mp h1
    simp only [List.map_cons, List.map_nil, List.mem_singleton] at m1 m2
    rw [← m1] at m2
    exact absurd m2 (by decide)
  · match out, m1, m2 with
    | [b], m1, m2 =>
      simp only [List.map_cons, List.map_nil, List.mem_singleton] at m1 m2
      rw [← m1] at m2
      exact absurd m2 (by decide)
    | b1 :: b2 :: out, _, _ =>
      rw [g1]
      cases g2 with
      | cons h1 h2 =>
        cases h2 with
        | cons h2 h3 =>
          obtain ⟨v1, _, k1⟩ := h1
          obtain ⟨v2, _, k2⟩ := h2
          exact ⟨_, _, _, v1, v2, by rw [List.flatten_cons, List.flatten_cons, List.append_assoc], k1, k2⟩

end Dupi.Props
