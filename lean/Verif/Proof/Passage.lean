import Verif.Props.Find
/-! # The blot of a passage is determined by its text -/

namespace Dupi
open Spec

/-- the words before and from the `i`-th on -/
theorem placed_drop (gs : List (Bool × List Rune)) : ∀ (p i : Nat) (a : Nat × Bytes), (placedRunes p gs)[i]? = some a →
    ∃ pre suf, gs = pre ++ suf ∧ p + (Token.encAll (pre.flatMap Prod.snd)).length = a.1 ∧ placedRunes a.1 suf = (placedRunes p gs).drop i := by
  induction gs with
  | nil => intro p i a h; simp [placedRunes] at h
  | cons g gs ih =>
    intro p i a h
    obtain ⟨w, rs⟩ := g
    cases w
    · simp only [placedRunes, Bool.false_eq_true, if_false] at h ⊢
      obtain ⟨pre, suf, h1, h2, h3⟩ := ih _ i a h
      refine ⟨(false, rs) :: pre, suf, by rw [h1]; rfl, ?_, h3⟩
      rw [← h2]; simp [Token.encAll]; omega
    · simp only [placedRunes, if_true] at h ⊢
      cases i with
      | zero =>
        simp at h; subst h
        exact ⟨[], (true, rs) :: gs, rfl, by simp [Token.encAll], by simp [placedRunes]⟩
      | succ i =>
        simp only [List.getElem?_cons_succ] at h
        obtain ⟨pre, suf, h1, h2, h3⟩ := ih _ i a h
        refine ⟨(true, rs) :: pre, suf, by rw [h1]; rfl, ?_, by simpa using h3⟩
        rw [← h2]; simp [Token.encAll]; omega

/-- the words up to the `m`-th -/
theorem placed_take (gs : List (Bool × List Rune)) : ∀ (p m : Nat) (b : Nat × Bytes), (placedRunes p gs)[m]? = some b →
    ∃ mid rest, gs = mid ++ rest ∧ p + (Token.encAll (mid.flatMap Prod.snd)).length = b.1 + b.2.length ∧
      (mid.filter (·.1)).map (fun g => g.2.flatMap Rune.enc) = ((placedRunes p gs).map Prod.snd).take (m + 1) := by
  induction gs with
  | nil => intro p i a h; simp [placedRunes] at h
  | cons g gs ih =>
    intro p m b h
    obtain ⟨w, rs⟩ := g
    cases w
    · simp only [placedRunes, Bool.false_eq_true, if_false] at h ⊢
      obtain ⟨mid, rest, h1, h2, h3⟩ := ih _ m b h
      refine ⟨(false, rs) :: mid, rest, by rw [h1]; rfl, ?_, by simpa using h3⟩
      rw [← h2]; simp [Token.encAll]; omega
    · simp only [placedRunes, if_true] at h ⊢
      cases m with
      | zero =>
        simp at h; subst h
        exact ⟨[(true, rs)], gs, rfl, by simp [Token.encAll], by simp⟩
      | succ m =>
        simp only [List.getElem?_cons_succ] at h
        obtain ⟨mid, rest, h1, h2, h3⟩ := ih _ m b h
        refine ⟨(true, rs) :: mid, rest, by rw [h1]; rfl, ?_, by simpa using h3⟩
        rw [← h2]; simp [Token.encAll]; omega

theorem IsRuns.middle {f : Rune → Bool} {xs : List Rune} {pre mid suf : List (Bool × List Rune)} (h : IsRuns f xs (pre ++ mid ++ suf)) :
    IsRuns f (mid.flatMap Prod.snd) mid := by
  refine ⟨rfl, fun g hg => h.nonempty g (by simp [hg]), fun g hg => h.uniform g (by simp [hg]), fun i a b ha hb => ?_⟩
  have hi := (List.getElem?_eq_some_iff.mp hb).1
  refine h.alternate (pre.length + i) a b ?_ ?_
  · rw [List.append_assoc, List.getElem?_append_right (by omega), List.getElem?_append_left (by omega)]
    rw [← ha]; congr 1; omega
  · rw [List.append_assoc, List.getElem?_append_right (by omega), List.getElem?_append_left (by omega)]
    rw [← hb]; congr 1; omega

/-- The words of a passage can be read off its text. -/
theorem passage_words (u : Uni) (c : Config) (dat : Bytes) (i : Nat) (r : Nat × Nat) (h : passage u c dat i = some r) :
    ((words u dat).drop i).take (c.seqLen.toNat + 1) =
      ((runs (Token.isWordRune u) (decode (textAt dat r))).filter (·.1)).map fun g => g.2.flatMap Rune.enc := by
  unfold passage at h
  split at h
  · rename_i a b ha hb
    cases h
    cases hv : utf8Valid dat
    · simp [wordsAt_eq, hv] at ha
    rw [← wordsAt_snd]
    simp only [wordsAt_eq, hv, if_true] at ha hb ⊢
    generalize hgs : runs (Token.isWordRune u) (decode dat).dropLast = gs at ha hb
    have hruns := isRuns_runs (Token.isWordRune u) (decode dat).dropLast
    rw [hgs] at hruns
    obtain ⟨pre, suf, h1, h2, h3⟩ := placed_drop gs 0 i a ha
    have hb' : (placedRunes a.1 suf)[c.seqLen.toNat]? = some b := by rw [h3, List.getElem?_drop]; exact hb
    obtain ⟨mid, rest, k1, k2, k3⟩ := placed_take suf a.1 _ b hb'
    rw [h3] at k3
    rw [← List.map_drop, ← k3]
    -- the text is that of the runs in the middle
    have hgs' : gs = pre ++ mid ++ rest := by rw [h1, k1, List.append_assoc]
    have hcov := hruns.cover
    obtain ⟨last, hlast⟩ : ∃ last, decode dat = pre.flatMap Prod.snd ++ mid.flatMap Prod.snd ++ (rest.flatMap Prod.snd ++ last) := by
      rw [hgs', List.flatMap_append, List.flatMap_append] at hcov
      rcases List.eq_nil_or_concat (decode dat) with hd | ⟨l, x, hd⟩
      · refine ⟨[], ?_⟩
        rw [hd] at hcov ⊢
        rw [List.append_nil, hcov]; rfl
      · refine ⟨[x], ?_⟩
        rw [hd, List.concat_eq_append, List.dropLast_concat] at hcov
        rw [hd, List.concat_eq_append, ← hcov]; simp
    have hflat := decode_flat dat
    rw [hlast] at hflat
    have htext : textAt dat (a.1, b.1 + b.2.length) = Token.encAll (mid.flatMap Prod.snd) := by
      unfold textAt
      simp only
      rw [← hflat, List.flatMap_append, List.flatMap_append, List.append_assoc, List.drop_left' (by rw [Nat.zero_add] at h2; exact h2),
        List.take_left' (by rw [← k2]; simp [Token.encAll])]
    rw [htext, Token.encAll, decode_middle _ _ _ dat hlast (fun r hr => (utf8Valid_iff dat).mp hv r (by rw [hlast]; simp at hr ⊢; right; left; exact hr)),
      runs_unique _ _ _ (IsRuns.middle (hgs' ▸ hruns))]
  · cases h

theorem filterMap_congr' {α β : Type} (f g : α → Option β) (l : List α) (h : ∀ a ∈ l, f a = g a) : l.filterMap f = l.filterMap g := by
  induction l with
  | nil => rfl
  | cons a l ih => rw [List.filterMap_cons, List.filterMap_cons, h a (by simp), ih fun b hb => h b (by simp [hb])]

/-- a blot is the window over the words of its passage -/
theorem blotsOf_get (u : Uni) (c : Config) (hc : Props.Consistent c) (dat : Bytes) (i : Nat) (x : UInt32) (h : (blotsOf u c dat)[i]? = some x) :
    x = windowXor c.blotConfig.seqLen.toNat c.blotConfig.interleave.toNat
      ((((words u dat).drop i).take (c.seqLen.toNat + 1)).map (wordHash u)).reverse := by
  have hS := hc.seqLen_toNat
  obtain ⟨hlt, rfl⟩ := List.getElem?_eq_some_iff.mp h
  have hlt' : i < ((words u dat).map (wordHash u)).length - c.seqLen.toNat := by
    rw [hS]; simpa [blotsOf_eq, blots] using hlt
  simp only [blotsOf_eq, blots, List.getElem_map, List.getElem_range]
  rw [List.map_take, List.map_drop]
  generalize hhs : (words u dat).map (wordHash u) = hs at hlt'
  have e : hs.take (c.blotConfig.seqLen.toNat * c.blotConfig.interleave.toNat + i + 1) = hs.take i ++ (hs.drop i).take (c.seqLen.toNat + 1) := by
    rw [← hS, show c.seqLen.toNat + i + 1 = i + (c.seqLen.toNat + 1) by omega, List.take_add]
  rw [e, List.reverse_append]
  unfold windowXor
  refine congrArg xorAll (filterMap_congr' _ _ _ fun t ht => ?_)
  rw [List.getElem?_append_left]
  have := Nat.mul_le_mul_right c.blotConfig.interleave.toNat (Nat.le_of_lt (List.mem_range.mp ht))
  simp only [List.length_reverse, List.length_take, List.length_drop]
  omega

/-- passages with the same text have the same blot -/
theorem same_text (u : Uni) (c : Config) (hc : Props.Consistent c) (d d' : Bytes) (i j : Nat) (x y : UInt32) (r r' : Nat × Nat)
    (hx : (blotsOf u c d)[i]? = some x) (hy : (blotsOf u c d')[j]? = some y) (hr : passage u c d i = some r) (hr' : passage u c d' j = some r')
    (ht : textAt d r = textAt d' r') : x = y := by
  rw [blotsOf_get u c hc d i x hx, blotsOf_get u c hc d' j y hy, passage_words u c d i r hr, passage_words u c d' j r' hr', ht]

end Dupi
