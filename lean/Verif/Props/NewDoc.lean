import Verif.Model.NewDoc
import Verif.Props.Query
import Verif.Props.Find
import Verif.Props.Commands
/-! # C122: documents made with NewDoc

`NewDoc` makes a document of a path and a text, without an extent.  The index does not keep texts: what is
found is the path with extent 0:0, which stands for all of the file with this path. -/

namespace Dupi.Props
open Spec

section
variable {u : Uni} {J : CfgCodec} {srt : Sorter} {c : Config} (hU : Usable J c) (hsrt : IsSorter srt)
include hU hsrt

/-- **C122, what is found.**  A document made with `NewDoc`, added in any session of any history, is shown by
`Get` under each blot of its text, with its absolute path and extent 0:0. -/
theorem C122_found {h : Sessions} {x : Index} {q : QState} (hr : Reading u J srt c h x q) (hf : Fits u c (documents h))
    {cwd : Bytes} {new : List Doc} (hm : (cwd, new) ∈ h) {path body : Bytes} (hd : newDoc path body ∈ new)
    (grow : Nat → Nat) (b : UInt32) (hb : hasBlot u c body b.toNat = true) (fuel : Nat) (hfuel : (documents h).length < fuel) :
    ∃ r, Query.get grow x fuel q ⟨b, none⟩ = .ok r ∧ (⟨absPath cwd path, 0, 0, none⟩ : Doc) ∈ r.vis := by
  obtain ⟨r, h1, _, h3⟩ := C21_get hU hsrt hr hf grow b fuel hfuel rfl
  refine ⟨r, h1, ?_⟩
  rw [h3]
  refine List.mem_map.mpr ⟨⟨placeName (place cwd path), 0, 0, body⟩, ?_, by rw [absPath_place]; rfl⟩
  refine List.mem_filter.mpr ⟨?_, hb⟩
  exact List.mem_flatMap.mpr ⟨_, hm, List.mem_map.mpr ⟨_, hd, rfl⟩⟩
end

/-- The document found is read from the file with its path, all of it. -/
theorem newDoc_load (fs : Files) (p f : Bytes) (hf : fs p = some f) :
    (⟨p, 0, 0, none⟩ : Doc).load fs = .ok ⟨p, 0, UInt32.ofNat f.length, some f⟩ := by
  simp only [Doc.load, hf, and_self, if_true]

/-- where a blot is looked for in a document found -/
theorem newDoc_find (u : Uni) (fs : Files) (c : Config) (b : UInt32) (p f : Bytes) (hf : fs p = some f) :
    Index.findBlot u fs c b ⟨p, 0, 0, none⟩ = Index.findBlot u fs c b ⟨p, 0, UInt32.ofNat f.length, some f⟩ := by
  unfold Index.findBlot
  have h1 : (⟨p, 0, 0, none⟩ : Doc).ensure fs = .ok ⟨p, 0, UInt32.ofNat f.length, some f⟩ := by
    unfold Doc.ensure; exact newDoc_load fs p f hf
  have h2 : (⟨p, 0, UInt32.ofNat f.length, some f⟩ : Doc).ensure fs = .ok ⟨p, 0, UInt32.ofNat f.length, some f⟩ := rfl
  rw [h1, h2]

/-- **C122 if the file has the text.**  If the file with the path of the document holds exactly its text,
loading what is found gives the text, and `FindBlot` the first passage of the text with the blot. -/
theorem C122_text_partial (u : Uni) {c : Config} (hc : Findable c) (fs : Files) (cwd path body : Bytes) (hfs : fs (absPath cwd path) = some body)
    (b : UInt32) (hs : b.toNat < numBuckets c) (hb : hasBlot u c body b.toNat = true) :
    (⟨absPath cwd path, 0, 0, none⟩ : Doc).load fs = .ok ⟨absPath cwd path, 0, UInt32.ofNat body.length, some body⟩ ∧
    ∃ (i : Nat) (v : UInt32) (r : Nat × Nat), (blotsOf u c body)[i]? = some v ∧ v.toNat % numBuckets c = b.toNat ∧
      (∀ (k : Nat) v', k < i → (blotsOf u c body)[k]? = some v' → v'.toNat % numBuckets c ≠ b.toNat) ∧ passage u c body i = some r ∧
      Index.findBlot u fs c b ⟨absPath cwd path, 0, 0, none⟩ =
        .ok ((UInt32.ofNat r.1, UInt32.ofNat r.2), ⟨absPath cwd path, 0, UInt32.ofNat body.length, some body⟩) := by
  refine ⟨newDoc_load fs _ _ hfs, ?_⟩
  rw [newDoc_find u fs c b _ _ hfs]
  have := C27_find u fs hc b ⟨absPath cwd path, 0, UInt32.ofNat body.length, some body⟩ body rfl
  cases he : (blotsOf u c body).findIdx? (fun x => x.toNat % numBuckets c = b.toNat) with
  | none =>
    rw [List.findIdx?_eq_none_iff] at he
    simp only [hasBlot, List.any_eq_true] at hb
    obtain ⟨v, h1, h2⟩ := hb
    have h3 := he v h1
    have e : b.toNat % (c.numShards.toNat * 65536) = b.toNat := Nat.mod_eq_of_lt hs
    rw [e] at h2
    simp only [numBuckets] at h3
    simp_all
  | some i =>
    rw [he] at this
    obtain ⟨r, h1, h2⟩ := this
    obtain ⟨hi, h3, h4⟩ := List.findIdx?_eq_some_iff_getElem.mp he
    refine ⟨i, (blotsOf u c body)[i], r, List.getElem?_eq_getElem hi, by simpa using h3, ?_, h1, ?_⟩
    · intro k v' hk hv
      obtain ⟨hk', rfl⟩ := List.getElem?_eq_some_iff.mp hv
      simpa using h4 k hk
    · rw [h2]; simp

/-- **C122 is false otherwise.**  Whatever the file with the path of the document holds now is taken for the
text; and `FindBlot` fails if this has not got the blot. -/
theorem C122_false (u : Uni) {c : Config} (hc : Findable c) (fs : Files) (cwd path body f : Bytes) (hfs : fs (absPath cwd path) = some f)
    (hne : f ≠ body) (b : UInt32) :
    (∃ l, (⟨absPath cwd path, 0, 0, none⟩ : Doc).load fs = .ok l ∧ l.dat = some f ∧ l.dat ≠ some body) ∧
      (hasBlot u c f b.toNat = false → Index.findBlot u fs c b ⟨absPath cwd path, 0, 0, none⟩ = fail (.msg "blot not found")) := by
  refine ⟨⟨_, newDoc_load fs _ _ hfs, rfl, by simpa using hne⟩, fun hb => ?_⟩
  rw [newDoc_find u fs c b _ _ hfs]
  have := C27_find u fs hc b ⟨absPath cwd path, 0, UInt32.ofNat f.length, some f⟩ f rfl
  cases he : (blotsOf u c f).findIdx? (fun x => x.toNat % numBuckets c = b.toNat) with
  | none => rw [he] at this; exact this
  | some i =>
    obtain ⟨hi, h3, _⟩ := List.findIdx?_eq_some_iff_getElem.mp he
    simp only [hasBlot, List.any_eq_false] at hb
    have h4 := hb _ (List.getElem_mem hi)
    have h3 : (blotsOf u c f)[i].toNat % (c.numShards.toNat * 65536) = b.toNat := of_decide_eq_true h3
    simp only [decide_eq_true_eq] at h4
    rw [← h3, Nat.mod_mod] at h4
    exact absurd rfl h4

/-- **C122 is false of two texts with one path**, whatever the files: if two different texts are given the same
path, what is found for the one is what is found for the other, and for at least one of them it is not read
back. -/
theorem C122_false_two (cwd path body body' : Bytes) (hne : body ≠ body') (fs : Files) :
    ∃ s s', added cwd [newDoc path body, newDoc path body'] = [s, s'] ∧ s.dat = body ∧ s'.dat = body' ∧ s.shown = s'.shown ∧
      ¬ ((∃ l, s.shown.load fs = .ok l ∧ l.dat = some body) ∧ ∃ l, s'.shown.load fs = .ok l ∧ l.dat = some body') := by
  refine ⟨_, _, rfl, rfl, rfl, rfl, ?_⟩
  rintro ⟨⟨l, h1, h2⟩, l', h3, h4⟩
  have : l = l' := by
    have e : (Document.shown ⟨placeName (place cwd path), 0, 0, body⟩).load fs = (Document.shown ⟨placeName (place cwd path), 0, 0, body'⟩).load fs := rfl
    simp only [newDoc, Option.getD_some] at h1 h3
    rw [h1, h3] at e
    exact Except.ok.inj e
  rw [this, h4] at h2
  exact hne (Option.some.inj h2).symm

/-- a text of the examples, added as "a" in the directory "/" -/
theorem C122_nonvacuous : ∃ x q, Reading asciiUni Json.codec mergeSorter exCmdConfig [([47], [newDoc [97] exText1])] x q ∧
    Fits asciiUni exCmdConfig (documents [([47], [newDoc [97] exText1])]) ∧ Findable exCmdConfig ∧ (1 : UInt32).toNat < numBuckets exCmdConfig ∧
    hasBlot asciiUni exCmdConfig exText1 (1 : UInt32).toNat = true ∧ hasBlot asciiUni exCmdConfig [] (1 : UInt32).toNat = false := by
  have hdoc : documents [([47], [newDoc [97] exText1])] = [⟨[47, 97], 0, 0, exText1⟩] := by decide +kernel
  have hf : Fits asciiUni exCmdConfig (documents [([47], [newDoc [97] exText1])]) := by
    refine ⟨?_, ?_, ?_⟩ <;> rw [hdoc]
    · decide
    · decide
    · decide +kernel
  obtain ⟨d, hd⟩ := History.exists (u := asciiUni) exCmd_usable [47] [newDoc [97] exText1] [] hf
  obtain ⟨x, q, _, h2⟩ := reading_exists exCmd_usable mergeSorter_isSorter hd hf
  exact ⟨x, q, h2, hf, ⟨exCmd_usable.cons, by decide, by decide⟩, by decide, by decide +kernel, by decide +kernel⟩

end Dupi.Props
