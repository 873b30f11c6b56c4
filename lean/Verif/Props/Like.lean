import Verif.Props.Unblot
import Verif.Proof.Passage
/-! # The like command: C41 -/

namespace Dupi.Props
open Spec

/-- bucket of blot number `j` of a text -/
def bucketAt (u : Uni) (c : Config) (dat : Bytes) (j : Nat) : Option Nat := (blotsOf u c dat)[j]?.map fun x => x.toNat % numBuckets c

theorem likeMap_spec (u : Uni) {c : Config} (hF : Findable c) (dat : Bytes) (hl : dat.length < 2 ^ 32) (toks : List Tok)
    (htoks : wordToks toks = (wordsAt u dat).map (tokAt 0)) (bs : List UInt32) : ∀ (i : Nat) (m : Index.Texts), (blotsOf u c dat).drop i = bs →
    ∃ m', Cmd.likeMap c dat (compact toks) i bs m = .ok m' ∧ ∀ x t, Index.Texts.get m' x = some t ↔
      (∃ (j : Nat) (r : Nat × Nat), i ≤ j ∧ bucketAt u c dat j = some x.toNat ∧ passage u c dat j = some r ∧ textAt dat r = t ∧
        ∀ j', j < j' → bucketAt u c dat j' ≠ some x.toNat) ∨
      (Index.Texts.get m x = some t ∧ ∀ j', i ≤ j' → bucketAt u c dat j' ≠ some x.toNat) := by
  induction bs with
  | nil =>
    intro i m hd
    have hlen : (blotsOf u c dat).length ≤ i := List.drop_eq_nil_iff.mp hd
    have hnone : ∀ j, i ≤ j → bucketAt u c dat j = none := by
      intro j hj; unfold bucketAt; rw [List.getElem?_eq_none (by omega)]; rfl
    refine ⟨m, rfl, fun x t => ?_⟩
    constructor
    · intro h; right; exact ⟨h, fun j hj => by rw [hnone j hj]; simp⟩
    · rintro (⟨j, r, h1, h2, _⟩ | ⟨h1, _⟩)
      · rw [hnone j h1] at h2; cases h2
      · exact h1
  | cons b bs ih =>
    intro i m hd
    have hlt : i < (blotsOf u c dat).length := by
      rcases Nat.lt_or_ge i (blotsOf u c dat).length with h | h
      · exact h
      · rw [List.drop_eq_nil_of_le h] at hd; cases hd
    have hcons := List.drop_eq_getElem_cons hlt
    rw [hd] at hcons
    injection hcons with e1 e2
    have e1' : (blotsOf u c dat)[i]? = some b := by rw [List.getElem?_eq_getElem hlt, ← e1]
    obtain ⟨r, hr⟩ := Option.isSome_iff_exists.mp ((passage_some hF.cons dat i).1.mp hlt)
    obtain ⟨a, a', ha, ha', hra, hle, hle'⟩ := (passage_some hF.cons dat i).2 r hr
    have hN := Index.blotMod_toNat hF.shards hF.shardsSmall
    have hseq : c.seqLen = ((c.seqLen.toNat : Nat) : Int) := by
      have := hF.cons.seqLen_eq; omega
    have ht1 : (compact toks)[i]? = some (tokAt 0 a) := by
      rw [Index.compact_get htoks i (by simpa using (List.getElem?_eq_some_iff.mp ha).1), List.getElem?_map, ha]; rfl
    have ht2 : (compact toks)[i + c.seqLen.toNat]? = some (tokAt 0 a') := by
      rw [Index.compact_get htoks _ (by simpa using (List.getElem?_eq_some_iff.mp ha').1), List.getElem?_map, ha']; rfl
    have hidx : ((i : Int) + c.seqLen).toNat = i + c.seqLen.toNat := by omega
    have hnn : ¬ ((i : Int) + c.seqLen < 0) := by omega
    have hr1 : r.1 = a.1 := by rw [hra]
    have hr2 : r.2 = a'.1 + a'.2.length := by rw [hra]
    have hsl : slice dat (tokAt 0 a).pos.toNat ((tokAt 0 a').pos + UInt32.ofNat (tokAt 0 a').lit.length).toNat = .ok (textAt dat r) := by
      simp only [tokAt, UInt32.zero_add, ← UInt32.ofNat_add, ← hr1, ← hr2]
      rw [toNat_ofNat_lt (by omega), toNat_ofNat_lt (by omega), slice, if_pos ⟨hle, hle'⟩]; rfl
    obtain ⟨m', k1, k2⟩ := ih (i + 1) (Index.Texts.set m (b % Index.blotMod c) (textAt dat r)) (by rw [e2])
    refine ⟨m', ?_, fun x t => ?_⟩
    · simp only [Cmd.likeMap, ht1, hidx, ht2, hnn, if_false, bind, Except.bind, if_neg hN.2, hsl]
      exact k1
    · have hbi : bucketAt u c dat i = some (b % Index.blotMod c).toNat := by
        unfold bucketAt; rw [e1', Option.map_some, UInt32.toNat_mod, hN.1]
      rw [k2, Index.get_set]
      constructor
      · rintro (⟨j, r', h1, h2, h3, h4, h5⟩ | ⟨h1, h2⟩)
        · exact .inl ⟨j, r', by omega, h2, h3, h4, h5⟩
        · by_cases hx : x = b % Index.blotMod c
          · rw [if_pos hx] at h1
            injection h1 with h1
            exact .inl ⟨i, r, Nat.le_refl _, by rw [hbi, hx], hr, h1, fun j' hj' => h2 j' (by omega)⟩
          · rw [if_neg hx] at h1
            refine .inr ⟨h1, fun j' hj' => ?_⟩
            rcases Nat.lt_or_eq_of_le hj' with h | h
            · exact h2 j' h
            · subst h; rw [hbi]; intro he; injection he with he; exact hx (UInt32.toNat_inj.mp he.symm)
      · rintro (⟨j, r', h1, h2, h3, h4, h5⟩ | ⟨h1, h2⟩)
        · rcases Nat.lt_or_eq_of_le h1 with h | h
          · exact .inl ⟨j, r', h, h2, h3, h4, h5⟩
          · subst h
            rw [hbi] at h2
            injection h2 with h2
            rw [hr] at h3
            injection h3 with h3
            refine .inr ⟨?_, fun j' hj' => h5 j' (by omega)⟩
            rw [if_pos (UInt32.toNat_inj.mp h2.symm), h3, h4]
        · refine .inr ⟨?_, fun j' hj' => h2 j' (by omega)⟩
          rw [if_neg]
          · exact h1
          · intro hx; apply h2 i (Nat.le_refl _); rw [hbi, hx]

/-- the document has a text of `bm` at a passage with its blot -/
def Matches (u : Uni) (c : Config) (bm : UInt32 → Option Bytes) (s : Document) : Prop :=
  ∃ b t, bm b = some t ∧ ∃ (i : Nat) (x : UInt32) (r : Nat × Nat), (blotsOf u c s.dat)[i]? = some x ∧ x.toNat % numBuckets c = b.toNat ∧
    passage u c s.dat i = some r ∧ textAt s.dat r = t

theorem findBlots_shown {u : Uni} {fs : Files} {c : Config} (bm : UInt32 → Option Bytes) {s : Document} {d : Doc} (hl : s.shown.load fs = .ok d)
    (hd : d.dat.isSome) : Index.findBlots u fs c bm s.shown = Index.findBlots u fs c bm d := by
  obtain ⟨dat, hd⟩ := Option.isSome_iff_exists.mp hd
  have h1 : s.shown.ensure fs = .ok d := hl
  have h2 : d.ensure fs = .ok d := by simp [Doc.ensure, hd]
  simp only [Index.findBlots, h1, h2, bind, Except.bind]

theorem likeDocs_spec (u : Uni) (fs : Files) {c : Config} (hF : Findable c) (bm : UInt32 → Option Bytes) (ss : List Document)
    (hun : Unchanged fs ss) (h0 : ∀ s ∈ ss, s.start = 0) : ∀ found : List Cmd.DocKey, found.Nodup →
    ∃ found', Cmd.likeDocs u fs c bm (ss.map Document.shown) found = .ok found' ∧ found'.Nodup ∧
      (∀ k, k ∈ found' → k ∈ found ∨ ∃ s ∈ ss, Cmd.dkey s.shown = k ∧ Matches u c bm s) ∧
      (∀ k, k ∈ found → k ∈ found') ∧ (∀ s ∈ ss, Matches u c bm s → Cmd.dkey s.shown ∈ found') := by
  induction ss with
  | nil => intro found hnd; exact ⟨found, rfl, hnd, fun k hk => .inl hk, fun k hk => hk, by simp⟩
  | cons s ss ih =>
    intro found hnd
    have ih' := ih (fun s hs => hun s (by simp [hs])) (fun s hs => h0 s (by simp [hs]))
    rw [List.map_cons, Cmd.likeDocs]
    by_cases hk : Cmd.dkey s.shown ∈ found
    · rw [if_pos hk]
      obtain ⟨found', k1, k2, k3, k4, k5⟩ := ih' found hnd
      refine ⟨found', k1, k2, fun k hkk => ?_, k4, fun t ht hm => ?_⟩
      · rcases k3 k hkk with h | ⟨s', hs', h⟩
        · exact .inl h
        · exact .inr ⟨s', by simp [hs'], h⟩
      · rcases List.mem_cons.mp ht with rfl | ht
        · exact k4 _ hk
        · exact k5 t ht hm
    · rw [if_neg hk]
      obtain ⟨f, hf, hcov, hlen⟩ := hun s (by simp)
      have hload := C34_load_partial fs s f hf hcov
      have hfb := findBlots_shown (u := u) (c := c) bm hload rfl
      obtain ⟨res, hres, hspec⟩ := C28_texts_partial u fs hF bm ⟨s.path, s.start, if s.start = 0 ∧ s.stop = 0 then UInt32.ofNat f.length else s.stop, some s.dat⟩
        s.dat rfl (h0 s (by simp)) hlen
      have hiff : res.length = 0 ↔ ¬ Matches u c bm s := by
        constructor
        · intro hz ⟨b, t, hm⟩
          have := (hspec b t).mpr hm
          rw [List.length_eq_zero_iff.mp hz] at this
          simp [Index.Texts.get] at this
        · intro hno
          cases res with
          | nil => rfl
          | cons g res =>
            exfalso; apply hno
            refine ⟨g.1, g.2, (hspec g.1 g.2).mp ?_⟩
            obtain ⟨g1, g2⟩ := g
            simp [Index.Texts.get]
      rw [hfb, hres]
      simp only [bind, Except.bind]
      by_cases hm : Matches u c bm s
      · rw [if_neg (fun h => hiff.mp h hm)]
        obtain ⟨found', k1, k2, k3, k4, k5⟩ := ih' (found ++ [Cmd.dkey s.shown]) (by
          rw [List.nodup_append]
          refine ⟨hnd, by simp, ?_⟩
          intro a ha b hb
          rw [List.mem_singleton] at hb
          subst hb
          intro e; exact hk (e ▸ ha))
        refine ⟨found', k1, k2, fun k hkk => ?_, fun k hkk => k4 k (by simp [hkk]), fun t ht hmt => ?_⟩
        · rcases k3 k hkk with h | ⟨s', hs', h⟩
          · rcases List.mem_append.mp h with h | h
            · exact .inl h
            · rw [List.mem_singleton] at h; exact .inr ⟨s, by simp, h.symm, hm⟩
          · exact .inr ⟨s', by simp [hs'], h⟩
        · rcases List.mem_cons.mp ht with rfl | ht
          · exact k4 _ (by simp)
          · exact k5 t ht hmt
      · rw [if_pos (hiff.mpr hm)]
        obtain ⟨found', k1, k2, k3, k4, k5⟩ := ih' found hnd
        refine ⟨found', k1, k2, fun k hkk => ?_, k4, fun t ht hmt => ?_⟩
        · rcases k3 k hkk with h | ⟨s', hs', h⟩
          · exact .inl h
          · exact .inr ⟨s', by simp [hs'], h⟩
        · rcases List.mem_cons.mp ht with rfl | ht
          · exact absurd hmt hm
          · exact k5 t ht hmt

section
variable {u : Uni} {J : CfgCodec} {srt : Sorter} {c : Config} (hU : Usable J c) (hsrt : IsSorter srt)
include hU hsrt

theorem likeLoop_spec {h : Sessions} {x : Index} {q : QState} (hr : Reading u J srt c h x q) (hf : Fits u c (documents h))
    (hs : c.numShards < 65536) (fs : Files) (hun : Unchanged fs (documents h)) (h0 : ∀ s ∈ documents h, s.start = 0) (grow : Nat → Nat)
    (fuel : Nat) (hfuel : (documents h).length < fuel) (bm : UInt32 → Option Bytes) (bs : List UInt32) : ∀ fd : List Cmd.DocKey, fd.Nodup →
    ∃ fd', Cmd.likeLoop u fs grow x fuel q bm bs fd = .ok fd' ∧ fd'.Nodup ∧
      (∀ k, k ∈ fd' → k ∈ fd ∨ ∃ s ∈ documents h, Cmd.dkey s.shown = k ∧ Matches u c bm s) ∧
      (∀ k, k ∈ fd → k ∈ fd') ∧
      (∀ b ∈ bs, ∀ s ∈ found u c (documents h) b.toNat, Matches u c bm s → Cmd.dkey s.shown ∈ fd') := by
  have hF : Findable c := ⟨hU.cons, hU.shards, hs⟩
  have hN := Index.blotMod_toNat hF.shards hF.shardsSmall
  obtain ⟨_, _, _, _, hcfg, _⟩ := hr.rep hU hsrt hf
  induction bs with
  | nil => intro fd hnd; exact ⟨fd, rfl, hnd, fun k hk => .inl hk, fun k hk => hk, by simp⟩
  | cons b bs ih =>
    intro fd hnd
    obtain ⟨r, g1, g2, g3⟩ := C21_get hU hsrt hr hf grow (b % Index.blotMod c) fuel hfuel (q' := q) rfl
    have hfound : found u c (documents h) (b % Index.blotMod c).toNat = found u c (documents h) b.toNat := by
      have : ∀ d, hasBlot u c d (b % Index.blotMod c).toNat = hasBlot u c d b.toNat := by
        intro d
        unfold hasBlot
        rw [UInt32.toNat_mod, hN.1]
        unfold numBuckets
        simp only [Nat.mod_mod]
      unfold found; simp only [this]
    rw [hfound] at g3
    have hsub : ∀ s ∈ found u c (documents h) b.toNat, s ∈ documents h := fun s hs => (List.mem_filter.mp hs).1
    obtain ⟨fd1, k1, k2, k3, k4, k5⟩ := likeDocs_spec u fs hF bm (found u c (documents h) b.toNat) (fun s hs => hun s (hsub s hs))
      (fun s hs => h0 s (hsub s hs)) fd hnd
    obtain ⟨fd2, l1, l2, l3, l4, l5⟩ := ih fd1 k2
    refine ⟨fd2, ?_, l2, fun k hk => ?_, fun k hk => l4 k (k4 k hk), fun b' hb' s hs hm => ?_⟩
    · rw [Cmd.likeLoop, hcfg, if_neg hN.2, g1]
      simp only [bind, Except.bind, g3, k1]
      exact l1
    · rcases l3 k hk with h | h
      · rcases k3 k h with h | ⟨s, hs, h⟩
        · exact .inl h
        · exact .inr ⟨s, hsub s hs, h⟩
      · exact .inr h
    · rcases List.mem_cons.mp hb' with rfl | hb'
      · exact l4 _ (k5 s hs hm)
      · exact l5 b' hb' s hs hm

/-- **C41.**  Given an index of documents that start at 0 in their files, and the files are unchanged, `dupi like` lists a document (its path,
start and end, each combination once) precisely if one of its passages has the same text as a passage of the file; of the
passages of the file in one bucket only the last counts. -/
theorem C41_like {h : Sessions} {x : Index} {q : QState} (hr : Reading u J srt c h x q) (hf : Fits u c (documents h))
    (hs : c.numShards < 65536) (fs : Files) (hun : Unchanged fs (documents h)) (h0 : ∀ s ∈ documents h, s.start = 0) (grow : Nat → Nat)
    (fuel : Nat) (hfuel : (documents h).length < fuel) (dat : Bytes) (hl : dat.length < 2 ^ 32) :
    ∃ out, Cmd.like u fs grow x fuel q dat = .ok out ∧ out.Nodup ∧
      ∀ k, k ∈ out ↔ ∃ s ∈ documents h, (s.path, s.start, s.stop) = k ∧
        ∃ (i j : Nat) (r r' : Nat × Nat) (b : Nat), passage u c s.dat i = some r ∧ passage u c dat j = some r' ∧ textAt s.dat r = textAt dat r' ∧
          bucketAt u c dat j = some b ∧ ∀ j', j < j' → bucketAt u c dat j' ≠ some b := by
  have hF : Findable c := ⟨hU.cons, hU.shards, hs⟩
  obtain ⟨_, _, _, _, hcfg, _⟩ := hr.rep hU hsrt hf
  obtain ⟨toks, ht, hw⟩ := tokenize_wordsAt u dat 0
  obtain ⟨bm, b1, b2⟩ := likeMap_spec u hF dat hl toks hw (blotsOf u c dat) 0 [] rfl
  obtain ⟨out, o1, o2, o3, o4, o5⟩ := likeLoop_spec hU hsrt hr hf hs fs hun h0 grow fuel hfuel bm.get (blotsOf u c dat) [] List.nodup_nil
  have hblots : blotDoc u c [] dat 0 = .ok (blotsOf u c dat) := by
    rw [blotDoc_spec u c hU.cons.seq hU.cons.inter hU.cons.prod hU.cons.tok, blotsOf_eq]; rfl
  have hN : 0 < numBuckets c := by have := hU.shards; unfold numBuckets; omega
  refine ⟨out, ?_, o2, fun k => ?_⟩
  · simp only [Cmd.like, hcfg, hblots, tokenFunc_ok hU.cons.tok, ht, b1, bind, Except.bind]; exact o1
  · constructor
    · intro hk
      rcases o3 k hk with h | ⟨s, hs, hkey, b, t, hm, i, y, r, g1, g2, g3, g4⟩
      · cases h
      · rw [b2] at hm
        rcases hm with ⟨j, r', _, m2, m3, m4, m5⟩ | ⟨m1, _⟩
        · exact ⟨s, hs, hkey, i, j, r, r', b.toNat, g3, m3, g4.trans m4.symm, m2, m5⟩
        · simp [Index.Texts.get] at m1
    · rintro ⟨s, hs, rfl, i, j, r, r', b, g1, g2, g3, g4, g5⟩
      -- the blot of the file's passage
      unfold bucketAt at g4
      rw [Option.map_eq_some_iff] at g4
      obtain ⟨y, hy, hyb⟩ := g4
      have hi : i < (blotsOf u c s.dat).length := (passage_some hF.cons s.dat i).1.mpr (by rw [g1]; rfl)
      have hx := List.getElem?_eq_getElem hi
      have hxy := same_text u c hF.cons s.dat dat i j _ y r r' hx hy g1 g2 g3
      rw [hxy] at hx
      have hlt : b < 2 ^ 32 := by have := Nat.mod_le y.toNat (numBuckets c); have := y.toNat_lt; omega
      have hm : Matches u c bm.get s := by
        refine ⟨UInt32.ofNat b, textAt dat r', ?_, i, y, r, hx, by rw [toNat_ofNat_lt hlt]; exact hyb, g1, g3⟩
        rw [b2]
        refine .inl ⟨j, r', Nat.zero_le _, ?_, g2, rfl, ?_⟩
        · rw [toNat_ofNat_lt hlt]; unfold bucketAt; rw [hy, Option.map_some, hyb]
        · rw [toNat_ofNat_lt hlt]; exact g5
      refine o5 y (List.mem_of_getElem? hy) s ?_ hm
      refine List.mem_filter.mpr ⟨hs, ?_⟩
      simp only [hasBlot, List.any_eq_true, decide_eq_true_eq]
      exact ⟨y, List.mem_of_getElem? hx, rfl⟩

end

/-- two whole files, "a b c d." and "x b c e." -/
def exLikeHistory : Sessions :=
  [([47], [⟨[112], 0, 8, some [97, 32, 98, 32, 99, 32, 100, 46]⟩, ⟨[113], 0, 8, some [120, 32, 98, 32, 99, 32, 101, 46]⟩])]

def exLikeFiles : Files := fun p =>
  if p = [47, 112] then some [97, 32, 98, 32, 99, 32, 100, 46]
  else if p = [47, 113] then some [120, 32, 98, 32, 99, 32, 101, 46]
  else none

/-- the assumptions of C41 can be met, and the file "z b c d." is listed as like the first document only -/
example : ∃ x q, Reading asciiUni ⟨fun _ => [], fun _ => .ok exQConfig⟩ mergeSorter exQConfig exLikeHistory x q ∧
    Fits asciiUni exQConfig (documents exLikeHistory) ∧ Unchanged exLikeFiles (documents exLikeHistory) ∧
    (∀ s ∈ documents exLikeHistory, s.start = 0) ∧
    ((blotsOf asciiUni exQConfig [122, 32, 98, 32, 99, 32, 100, 46]).length = 2) ∧
    (passage asciiUni exQConfig [122, 32, 98, 32, 99, 32, 100, 46] 1).map (textAt [122, 32, 98, 32, 99, 32, 100, 46]) =
      (passage asciiUni exQConfig [97, 32, 98, 32, 99, 32, 100, 46] 1).map (textAt [97, 32, 98, 32, 99, 32, 100, 46]) := by
  have hfit : Fits asciiUni exQConfig (documents exLikeHistory) := ⟨by decide, by decide +kernel, by decide +kernel⟩
  obtain ⟨d, hd⟩ := History.exists (u := asciiUni) exUsable [47] _ [] hfit
  obtain ⟨x, q, _, h⟩ := reading_exists exUsable mergeSorter_isSorter hd hfit
  refine ⟨x, q, h, hfit, ?_, by decide +kernel, by decide +kernel, by decide +kernel⟩
  have : ∀ s ∈ documents exLikeHistory, ((exLikeFiles s.path).any fun f => decide (Covers s f)) = true ∧ s.dat.length < 2 ^ 32 := by
    decide +kernel
  intro s hs
  obtain ⟨h1, h2⟩ := this s hs
  cases hf : exLikeFiles s.path with
  | none => rw [hf] at h1; cases h1
  | some f => rw [hf] at h1; exact ⟨f, rfl, by simpa using h1, h2⟩

end Dupi.Props
