import Verif.Proof.Find
import Verif.Props.Shatter
/-! # Looking for blots in documents: C27, C28, C34 -/

namespace Dupi.Props
open Spec

theorem blotsFrom_length (n k : Nat) (hs : List UInt32) : (blotsFrom n k [] hs).length = hs.length - n * k := by
  rw [blotsFrom_nil]; simp [blots]

theorem Consistent.seqLen_toNat {c : Config} (h : Consistent c) :
    c.seqLen.toNat = c.blotConfig.seqLen.toNat * c.blotConfig.interleave.toNat := by
  have := h.seqLen_eq; omega

/-- The blots of a text correspond to its passages, which are where they should be: they begin with a word and end with one, in the text. -/
theorem passage_some {u : Uni} {c : Config} (hc : Consistent c) (dat : Bytes) (i : Nat) :
    (i < (blotsOf u c dat).length ↔ (passage u c dat i).isSome) ∧
    ∀ r, passage u c dat i = some r → ∃ a b, (wordsAt u dat)[i]? = some a ∧ (wordsAt u dat)[i + c.seqLen.toNat]? = some b ∧
      r = (a.1, b.1 + b.2.length) ∧ r.1 ≤ r.2 ∧ r.2 ≤ dat.length := by
  have hl : (blotsOf u c dat).length = (wordsAt u dat).length - c.seqLen.toNat := by
    have := congrArg List.length (wordsAt_snd u dat)
    rw [List.length_map] at this
    rw [this, hc.seqLen_toNat]
    simp [blotsOf_eq, blots]
  constructor
  · rw [hl]
    unfold passage
    constructor
    · intro h
      rw [List.getElem?_eq_getElem (show i < (wordsAt u dat).length by omega),
        List.getElem?_eq_getElem (show i + c.seqLen.toNat < (wordsAt u dat).length by omega)]
      rfl
    · intro h
      split at h
      · rename_i hb
        have := (List.getElem?_eq_some_iff.mp hb).1
        omega
      · cases h
  · intro r hr
    unfold passage at hr
    split at hr
    · rename_i a b ha hb
      cases hr
      have h1 := (wordsAt_text u dat).1 b (List.mem_of_getElem? hb)
      have h2 := wordsAt_le u dat ha hb (by omega)
      exact ⟨a, b, ha, hb, rfl, by simp only; omega, h1.1⟩
    · cases hr

/-- What the configuration must satisfy for the reduction of blots to make sense. -/
structure Findable (c : Config) : Prop where
  cons : Consistent c
  shards : 0 < c.numShards
  shardsSmall : c.numShards < 65536

theorem mod_eq {c : Config} (h : Findable c) (x b : UInt32) : x % Index.blotMod c = b ↔ x.toNat % numBuckets c = b.toNat := by
  have := (Index.blotMod_toNat h.shards h.shardsSmall).1
  rw [← UInt32.toNat_inj, UInt32.toNat_mod, this]

/-- **C27.**  `FindBlot` of any value in a document with data finds the first of the document's blots that is this value modulo
the number of buckets, and returns its passage, in positions shifted by the document's start; it fails precisely if there is none. -/
theorem C27_find (u : Uni) (fs : Files) {c : Config} (h : Findable c) (b : UInt32) (doc : Doc) (dat : Bytes) (hd : doc.dat = some dat) :
    match (blotsOf u c dat).findIdx? (fun x => x.toNat % numBuckets c = b.toNat) with
    | none => Index.findBlot u fs c b doc = fail (.msg "blot not found")
    | some i => ∃ r, passage u c dat i = some r ∧
        Index.findBlot u fs c b doc = .ok ((doc.start + UInt32.ofNat r.1, doc.start + UInt32.ofNat r.2), doc) := by
  obtain ⟨toks, ht, hw⟩ := tokenize_wordsAt u dat doc.start
  obtain ⟨bl, hb, hr⟩ := fromConfig_repL c.blotConfig h.cons.seq h.cons.inter
  have hsl := h.cons.seqLen_toNat
  have hN := (Index.blotMod_toNat h.shards h.shardsSmall).2
  have hseq : c.seqLen = ((c.seqLen.toNat : Nat) : Int) := by
    rw [hsl, ← h.cons.seqLen_eq]
  have := Index.findBlotLoop_spec u c.blotConfig.seqLen.toNat c.blotConfig.interleave.toNat (Index.blotMod c) b hN
    (compact toks) ((wordsAt u dat).map (tokAt doc.start)) (fun i hi => Index.compact_get hw i hi)
    ((wordsAt u dat).map (tokAt doc.start)) bl [] hr rfl (by simp)
  rw [← hsl, ← hseq] at this
  have hlits : (((wordsAt u dat).map (tokAt doc.start)).map Tok.lit) = words u dat := by
    rw [← wordsAt_snd, List.map_map]; rfl
  have hp : (fun x : UInt32 => decide (x % Index.blotMod c = b)) = fun x => decide (x.toNat % numBuckets c = b.toNat) := by
    funext x; simp only [mod_eq h]
  rw [hlits, blotsFrom_nil, ← blotsOf_eq, hp] at this
  change (match (blotsOf u c dat).findIdx? (fun x => x.toNat % numBuckets c = b.toNat) with | none => _ | some i => _) at this
  have hfind : Index.findBlot u fs c b doc = (do
      let r ← Index.findBlotLoop u c.seqLen (Index.blotMod c) b (compact toks) bl 0 ((wordsAt u dat).map (tokAt doc.start))
      return (r, doc)) := by
    simp only [Index.findBlot, Doc.ensure, tokenFunc_ok h.cons.tok, hd, bind, Except.bind, Option.getD_some, ht, Config.blotter, hb, hw]
  rw [hfind]
  generalize (blotsOf u c dat).findIdx? _ = r at this ⊢
  cases r with
  | none => simp only [List.length_nil] at this; simp only; rw [this]; rfl
  | some i =>
    obtain ⟨t, t', g1, g2, g3⟩ := this
    simp only [List.length_nil, Nat.max_eq_right (Nat.zero_le _), Nat.sub_self, Nat.zero_add] at g1 g2 g3
    rw [List.getElem?_map, Option.map_eq_some_iff] at g1 g2
    obtain ⟨a, ha, rfl⟩ := g1
    obtain ⟨a', ha', rfl⟩ := g2
    rw [Nat.add_comm] at ha'
    refine ⟨(a.1, a'.1 + a'.2.length), by simp only [passage, ha, ha'], ?_⟩
    simp only [g3, bind, Except.bind, pure, Except.pure, tokAt]
    rw [UInt32.ofNat_add, UInt32.add_assoc]

/-- **C27, completeness.**  `FindBlot` succeeds precisely on the blots of the document, reduced modulo the number of buckets. -/
theorem C27_iff (u : Uni) (fs : Files) {c : Config} (h : Findable c) (b : UInt32) (doc : Doc) (dat : Bytes) (hd : doc.dat = some dat) :
    (∃ r, Index.findBlot u fs c b doc = .ok r) ↔ ∃ x ∈ blotsOf u c dat, x.toNat % numBuckets c = b.toNat := by
  have := C27_find u fs h b doc dat hd
  cases hf : (blotsOf u c dat).findIdx? (fun x => x.toNat % numBuckets c = b.toNat) with
  | none =>
    rw [hf] at this
    rw [List.findIdx?_eq_none_iff] at hf
    simp only at this
    constructor
    · rintro ⟨r, hr⟩; rw [this] at hr; cases hr
    · rintro ⟨x, hx, hb⟩; simpa [hb] using hf x hx
  | some i =>
    rw [hf] at this
    obtain ⟨r, _, hr⟩ := this
    obtain ⟨hlt, hi, _⟩ := List.findIdx?_eq_some_iff_getElem.mp hf
    exact ⟨fun _ => ⟨_, List.getElem_mem hlt, by simpa using hi⟩, fun _ => ⟨_, hr⟩⟩

/-- **C27, soundness.**  On success the range begins where a word of the document begins, ends where the `seqLen`-th word after
it ends, the blot there is the one asked for, and no earlier passage has it. -/
theorem C27_range (u : Uni) (fs : Files) {c : Config} (h : Findable c) (b : UInt32) (doc : Doc) (dat : Bytes) (hd : doc.dat = some dat)
    (s e : UInt32) (doc' : Doc) (hok : Index.findBlot u fs c b doc = .ok ((s, e), doc')) :
    doc' = doc ∧ ∃ (i : Nat) (x : UInt32) (w v : Nat × Bytes), (blotsOf u c dat)[i]? = some x ∧ x.toNat % numBuckets c = b.toNat ∧
      (wordsAt u dat)[i]? = some w ∧ (wordsAt u dat)[i + c.seqLen.toNat]? = some v ∧
      s = doc.start + UInt32.ofNat w.1 ∧ e = doc.start + UInt32.ofNat (v.1 + v.2.length) ∧
      ∀ (j : Nat) y, j < i → (blotsOf u c dat)[j]? = some y → y.toNat % numBuckets c ≠ b.toNat := by
  have := C27_find u fs h b doc dat hd
  cases hf : (blotsOf u c dat).findIdx? (fun x => x.toNat % numBuckets c = b.toNat) with
  | none => rw [hf] at this; simp only at this; rw [this] at hok; cases hok
  | some i =>
    rw [hf] at this
    obtain ⟨r, hp, hr⟩ := this
    rw [hr] at hok
    injection hok with hok
    injection hok with h1 h2
    injection h1 with h1 h3
    obtain ⟨hlt, hi, hj⟩ := List.findIdx?_eq_some_iff_getElem.mp hf
    obtain ⟨w, v, g1, g2, g3, _⟩ := (passage_some (u := u) h.cons dat i).2 r hp
    refine ⟨h2.symm, i, _, w, v, List.getElem?_eq_getElem hlt, by simpa using hi, g1, g2, ?_, ?_, ?_⟩
    · rw [← h1, g3]
    · rw [← h3, g3]
    · intro j y hji hy
      obtain ⟨hjl, rfl⟩ := List.getElem?_eq_some_iff.mp hy
      simpa using hj j hji

theorem toNat_ofNat_lt {n : Nat} (h : n < 2 ^ 32) : (UInt32.ofNat n).toNat = n := by
  rw [UInt32.toNat_ofNat']; omega

/-- **C28, for documents starting at 0.**  `FindBlots(m, doc)` returns precisely the entries `(b, t)` of `m` whose text `t` is in
the document at a passage with blot `b`. -/
theorem C28_texts_partial (u : Uni) (fs : Files) {c : Config} (h : Findable c) (m : UInt32 → Option Bytes) (doc : Doc) (dat : Bytes)
    (hd : doc.dat = some dat) (h0 : doc.start = 0) (hl : dat.length < 2 ^ 32) :
    ∃ res, Index.findBlots u fs c m doc = .ok (res, doc) ∧ ∀ b t, Index.Texts.get res b = some t ↔
      (m b = some t ∧ ∃ (i : Nat) (x : UInt32) (r : Nat × Nat), (blotsOf u c dat)[i]? = some x ∧ x.toNat % numBuckets c = b.toNat ∧
        passage u c dat i = some r ∧ textAt dat r = t) := by
  obtain ⟨toks, ht, hw⟩ := tokenize_wordsAt u dat doc.start
  obtain ⟨bl, hb, hr⟩ := fromConfig_repL c.blotConfig h.cons.seq h.cons.inter
  have hsl := h.cons.seqLen_toNat
  have hN := (Index.blotMod_toNat h.shards h.shardsSmall).2
  have hseq : c.seqLen = ((c.seqLen.toNat : Nat) : Int) := by
    rw [hsl, ← h.cons.seqLen_eq]
  have htxt : ∀ (i : Nat) t t', ((wordsAt u dat).map (tokAt doc.start))[i]? = some t →
      ((wordsAt u dat).map (tokAt doc.start))[i + c.seqLen.toNat]? = some t' →
      slice dat t.pos.toNat (t'.pos + UInt32.ofNat t'.lit.length).toNat = .ok (((passage u c dat i).map (textAt dat)).getD []) := by
    intro i t t' g1 g2
    rw [List.getElem?_map, Option.map_eq_some_iff] at g1 g2
    obtain ⟨a, ha, rfl⟩ := g1
    obtain ⟨a', ha', rfl⟩ := g2
    have hp : passage u c dat i = some (a.1, a'.1 + a'.2.length) := by simp only [passage, ha, ha']
    obtain ⟨_, _, _, _, _, hle, hle'⟩ := (passage_some h.cons dat i).2 _ hp
    simp only at hle hle'
    rw [hp]
    simp only [tokAt, h0, UInt32.zero_add, ← UInt32.ofNat_add]
    rw [toNat_ofNat_lt (by omega), toNat_ofNat_lt (by omega), slice, if_pos ⟨hle, hle'⟩]
    rfl
  rw [hsl] at htxt
  obtain ⟨res, hres, hspec⟩ := Index.findBlotsLoop_spec u c.blotConfig.seqLen.toNat c.blotConfig.interleave.toNat (Index.blotMod c) hN m dat
    (compact toks) ((wordsAt u dat).map (tokAt doc.start)) (fun i hi => Index.compact_get hw i hi) _ htxt
    ((wordsAt u dat).map (tokAt doc.start)) bl [] [] hr rfl (by simp) (by simp [Index.Texts.get])
  rw [← hsl, ← hseq] at hres
  have hlits : (((wordsAt u dat).map (tokAt doc.start)).map Tok.lit) = words u dat := by
    rw [← wordsAt_snd, List.map_map]; rfl
  refine ⟨res, ?_, fun b t => ?_⟩
  · simp only [List.length_nil] at hres
    simp only [Index.findBlots, Doc.ensure, tokenFunc_ok h.cons.tok, hd, bind, Except.bind, Option.getD_some, ht, Config.blotter, hb, hw, hres, pure, Except.pure]
  · rw [hspec, hlits, blotsFrom_nil, ← blotsOf_eq]
    simp only [Index.Texts.get, List.lookup_nil, reduceCtorEq, false_or, List.length_nil,
      Nat.max_eq_right (Nat.zero_le _), Nat.sub_self, Nat.zero_add, mod_eq h]
    refine and_congr_right fun _ => ?_
    constructor
    · rintro ⟨i, x, g1, g2, g3⟩
      have hlt := (List.getElem?_eq_some_iff.mp g1).1
      obtain ⟨r, hr⟩ := Option.isSome_iff_exists.mp ((passage_some h.cons dat i).1.mp hlt)
      exact ⟨i, x, r, g1, g2, hr, by rw [hr] at g3; exact g3⟩
    · rintro ⟨i, x, r, g1, g2, g3, g4⟩
      exact ⟨i, x, g1, g2, by rw [g3]; exact g4⟩

/-- **C28 does not hold at every start.**  The positions of tokens count from the beginning of the file, the data from the beginning
of the document.  For a document starting at `dat.length` or later (say the second half of a file), `FindBlots` panics as soon as
it looks at a blot that is in `m`. -/
theorem C28_false_panics (u : Uni) (fs : Files) {c : Config} (h : Findable c) (m : UInt32 → Option Bytes) (doc : Doc) (dat : Bytes)
    (hd : doc.dat = some dat) (h0 : dat.length ≤ doc.start.toNat) (hl : doc.start.toNat + dat.length < 2 ^ 32)
    (hm : ∃ x ∈ blotsOf u c dat, m (UInt32.ofNat (x.toNat % numBuckets c)) ≠ none) :
    Index.findBlots u fs c m doc = panic' := by
  obtain ⟨toks, ht, hw⟩ := tokenize_wordsAt u dat doc.start
  obtain ⟨bl, hb, hr⟩ := fromConfig_repL c.blotConfig h.cons.seq h.cons.inter
  have hsl := h.cons.seqLen_toNat
  have hN := Index.blotMod_toNat h.shards h.shardsSmall
  have hseq : c.seqLen = ((c.seqLen.toNat : Nat) : Int) := by
    rw [hsl, ← h.cons.seqLen_eq]
  have htxt : ∀ (i : Nat) t t', ((wordsAt u dat).map (tokAt doc.start))[i]? = some t →
      ((wordsAt u dat).map (tokAt doc.start))[i + c.seqLen.toNat]? = some t' →
      slice dat t.pos.toNat (t'.pos + UInt32.ofNat t'.lit.length).toNat = panic' := by
    intro i t t' g1 g2
    rw [List.getElem?_map, Option.map_eq_some_iff] at g1 g2
    obtain ⟨a, ha, rfl⟩ := g1
    obtain ⟨a', ha', rfl⟩ := g2
    have hle := ((wordsAt_text u dat).1 a' (List.mem_of_getElem? ha')).1
    have hne := List.length_pos_iff.mpr (wordsAt_ne u dat a' (List.mem_of_getElem? ha'))
    have : (doc.start + UInt32.ofNat a'.1 + UInt32.ofNat a'.2.length).toNat = doc.start.toNat + a'.1 + a'.2.length := by
      rw [UInt32.toNat_add, UInt32.toNat_add, UInt32.toNat_ofNat', UInt32.toNat_ofNat']; omega
    simp only [tokAt, this, slice]
    rw [if_neg (by omega)]
  rw [hsl] at htxt
  have hlits : (((wordsAt u dat).map (tokAt doc.start)).map Tok.lit) = words u dat := by
    rw [← wordsAt_snd, List.map_map]; rfl
  have hres := Index.findBlotsLoop_panic u c.blotConfig.seqLen.toNat c.blotConfig.interleave.toNat (Index.blotMod c) hN.2 m dat
    (compact toks) ((wordsAt u dat).map (tokAt doc.start)) (fun i hi => Index.compact_get hw i hi) htxt
    ((wordsAt u dat).map (tokAt doc.start)) bl [] [] hr rfl (by simp) (by
      rw [hlits, blotsFrom_nil, ← blotsOf_eq]
      obtain ⟨x, hx, hne⟩ := hm
      refine ⟨x, hx, ?_⟩
      rwa [show x % Index.blotMod c = UInt32.ofNat (x.toNat % numBuckets c) from UInt32.toNat_inj.mp (by
        rw [UInt32.toNat_mod, hN.1, toNat_ofNat_lt (Nat.lt_of_le_of_lt (Nat.mod_le _ _) x.toNat_lt)])])
  rw [← hsl, ← hseq] at hres
  simp only [List.length_nil] at hres
  simp only [Index.findBlots, Doc.ensure, tokenFunc_ok h.cons.tok, hd, bind, Except.bind, Option.getD_some, ht, Config.blotter, hb, hw, hres]

/-- The file `f` contains the document `s` where it says: in the range from start to end, or in all of `f` if both are 0. -/
def Covers (s : Document) (f : Bytes) : Prop :=
  if s.start = 0 ∧ s.stop = 0 then s.dat = f
  else s.start.toNat ≤ s.stop.toNat ∧ s.stop.toNat ≤ f.length ∧ s.dat = textAt f (s.start.toNat, s.stop.toNat)

/-- **C34.**  Loading a document as a query returns it, from a file that contains it, gives the data that was indexed; the end
is set if the document is a whole file.  (What is missing: the range 0:0 stands for the whole file, not for the empty one.) -/
theorem C34_load_partial (fs : Files) (s : Document) (f : Bytes) (hf : fs s.path = some f) (hc : Covers s f) :
    s.shown.load fs = .ok ⟨s.path, s.start, if s.start = 0 ∧ s.stop = 0 then UInt32.ofNat f.length else s.stop, some s.dat⟩ := by
  unfold Covers at hc
  unfold Doc.load Document.shown
  simp only [hf]
  by_cases h : s.start = 0 ∧ s.stop = 0
  · rw [if_pos h] at hc ⊢
    rw [if_pos h, hc]
  · rw [if_neg h] at hc ⊢
    rw [if_neg h]
    obtain ⟨h1, h2, h3⟩ := hc
    have hsub : (s.stop - s.start).toNat = s.stop.toNat - s.start.toNat := by
      rw [UInt32.toNat_sub_of_le _ _ (UInt32.le_iff_toNat_le.mpr h1)]
    rw [readAt, if_neg (by omega), hsub]
    by_cases hz : s.stop.toNat - s.start.toNat = 0
    · rw [if_pos hz, h3, textAt]; simp [hz]
    · rw [if_neg hz, if_pos (by omega)]
      simp only [Int.toNat_natCast, h3, textAt]

/-- **C34 fails for the empty range at 0**: a document with start = end = 0 is loaded as all of its file, even if other bytes (such
as none) were indexed. -/
theorem C34_false_empty (fs : Files) (s : Document) (f : Bytes) (hf : fs s.path = some f) (h0 : s.start = 0) (h1 : s.stop = 0) :
    ∃ d, s.shown.load fs = .ok d ∧ d.dat = some f := by
  refine ⟨_, by simp only [Doc.load, Document.shown, hf, h0, h1, and_self, if_true]; rfl, rfl⟩

/-- A document whose file has become shorter is refused. -/
theorem C34_short (fs : Files) (s : Document) (f : Bytes) (hf : fs s.path = some f) (h1 : s.start.toNat < s.stop.toNat)
    (h2 : f.length < s.stop.toNat) : s.shown.load fs = fail (.wrap "readat" .eof) := by
  have hsub : (s.stop - s.start).toNat = s.stop.toNat - s.start.toNat := by
    rw [UInt32.toNat_sub_of_le _ _ (UInt32.le_iff_toNat_le.mpr (by omega))]
  have h : ¬ (s.start = 0 ∧ s.stop = 0) := by
    rintro ⟨e1, e2⟩; rw [e1, e2] at h1; omega
  simp only [Doc.load, Document.shown, hf, if_neg h, readAt, hsub]
  rw [if_neg (by omega), if_neg (by omega), if_neg (by omega)]

/-! ## Examples -/

def exFConfig : Config := ⟨[47, 105], 2, 3, 2, 5, ⟨wordsSimple⟩, ⟨2, 1⟩⟩

theorem exFindable : Findable exFConfig := ⟨⟨by decide, by decide, by decide, rfl⟩, by decide, by decide⟩

/-- "x A, b  C!" at 3 of a file: its one passage is bytes 0 to 9 -/
example : blotsOf asciiUni exFConfig [120, 32, 65, 44, 32, 98, 32, 32, 67, 33] = [fnv32 [97] ^^^ fnv32 [98], fnv32 [98] ^^^ fnv32 [99]] ∧
    passage asciiUni exFConfig [120, 32, 65, 44, 32, 98, 32, 32, 67, 33] 1 = some (2, 9) ∧
    Index.findBlot asciiUni (fun _ => none) exFConfig
      (UInt32.ofNat ((fnv32 [98] ^^^ fnv32 [99]).toNat % numBuckets exFConfig)) ⟨[112], 3, 13, some [120, 32, 65, 44, 32, 98, 32, 32, 67, 33]⟩ =
      .ok ((5, 12), ⟨[112], 3, 13, some [120, 32, 65, 44, 32, 98, 32, 32, 67, 33]⟩) := by decide +kernel

/-- the same text as a document at 0: "A, b  C" is reported -/
example : Index.findBlots asciiUni (fun _ => none) exFConfig
    (fun b => if b = UInt32.ofNat ((fnv32 [98] ^^^ fnv32 [99]).toNat % numBuckets exFConfig) then some [65, 44, 32, 98, 32, 32, 67] else none)
    ⟨[112], 0, 10, some [120, 32, 65, 44, 32, 98, 32, 32, 67, 33]⟩ =
  .ok ([(UInt32.ofNat ((fnv32 [98] ^^^ fnv32 [99]).toNat % numBuckets exFConfig), [65, 44, 32, 98, 32, 32, 67])],
    ⟨[112], 0, 10, some [120, 32, 65, 44, 32, 98, 32, 32, 67, 33]⟩) := by decide +kernel

/-- the hypotheses of C28_false_panics can be met -/
example : ∃ x ∈ blotsOf asciiUni exFConfig [120, 32, 65, 44, 32, 98, 32, 32, 67, 33],
    (fun _ : UInt32 => (some [] : Option Bytes)) (UInt32.ofNat (x.toNat % numBuckets exFConfig)) ≠ none :=
  ⟨fnv32 [97] ^^^ fnv32 [98], by decide +kernel, by simp⟩

/-- bytes 3 to 5 of a file -/
example : Covers ⟨[47, 112], 3, 5, [103, 104]⟩ [100, 101, 102, 103, 104, 105] := by
  unfold Covers textAt; decide

end Dupi.Props
