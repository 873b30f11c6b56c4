import Verif.Props.Find
import Verif.Model.Cmd
/-! # The blot command: C43 -/

namespace Dupi.Props
open Spec

theorem placed_ge (gs : List (Bool × List Rune)) (p : Nat) (b : Nat × Bytes) (h : b ∈ placedRunes p gs) : p ≤ b.1 :=
  ((placed_text gs [] p).1 b h).1

/-- token number `k` comes no later than word number `m ≥ k` -/
theorem token_before (gs : List (Bool × List Rune)) : ∀ (p k m : Nat) (b : Nat × Bytes), (placedRunes p gs)[m]? = some b → k ≤ m →
    ∃ t q, (Token.render 0 p gs)[k]? = some t ∧ t.pos = UInt32.ofNat q ∧ (q + t.lit.length ≤ b.1 ∨ (k = m ∧ q = b.1 ∧ t.lit = b.2)) := by
  induction gs with
  | nil => intro p k m b h; simp [placedRunes] at h
  | cons g gs ih =>
    intro p k m b h hk
    obtain ⟨w, rs⟩ := g
    have hp : (0 : UInt32) + UInt32.ofNat p = UInt32.ofNat p := UInt32.zero_add _
    cases k with
    | zero =>
      refine ⟨_, p, rfl, hp, ?_⟩
      cases w
      · left
        simp only [placedRunes, Bool.false_eq_true, if_false] at h
        exact placed_ge _ _ _ (List.mem_of_getElem? h)
      · simp only [placedRunes, if_true] at h
        cases m with
        | zero => right; simp at h; subst h; exact ⟨rfl, rfl, rfl⟩
        | succ m => left; exact placed_ge _ _ _ (List.mem_of_getElem? (by simpa using h))
    | succ k =>
      cases w
      · simp only [placedRunes, Bool.false_eq_true, if_false] at h
        obtain ⟨t, q, h1, h2, h3⟩ := ih _ k m b h (by omega)
        refine ⟨t, q, by simpa [Token.render] using h1, h2, .inl ?_⟩
        rcases h3 with h3 | ⟨h3, _⟩
        · exact h3
        · omega
      · simp only [placedRunes, if_true] at h
        cases m with
        | zero => omega
        | succ m =>
          obtain ⟨t, q, h1, h2, h3⟩ := ih _ k m b (by simpa using h) (by omega)
          refine ⟨t, q, by simpa [Token.render] using h1, h2, ?_⟩
          rcases h3 with h3 | ⟨h3, h4⟩
          · exact .inl h3
          · exact .inr ⟨by omega, h4⟩

/-- with runs alternating, strictly so from the second word on -/
theorem token_strictly_before {f : Rune → Bool} {xs : List Rune} {gs : List (Bool × List Rune)} (hr : IsRuns f xs gs) (p m : Nat) (hm : 0 < m)
    (b : Nat × Bytes) (h : (placedRunes p gs)[m]? = some b) :
    ∃ t q, (Token.render 0 p gs)[m]? = some t ∧ t.pos = UInt32.ofNat q ∧ q + t.lit.length ≤ b.1 := by
  have hfalse : ∀ (gs : List (Bool × List Rune)) (rs : List Rune) (p k m : Nat), k ≤ m → (placedRunes p ((false, rs) :: gs))[m]? = some b →
      ∃ t q, (Token.render 0 p ((false, rs) :: gs))[k]? = some t ∧ t.pos = UInt32.ofNat q ∧ q + t.lit.length ≤ b.1 := by
    intro gs rs p k m hk h
    simp only [placedRunes, Bool.false_eq_true, if_false] at h
    cases k with
    | zero => exact ⟨_, p, rfl, UInt32.zero_add _, placed_ge _ _ _ (List.mem_of_getElem? h)⟩
    | succ k =>
      obtain ⟨t, q, h1, h2, h3⟩ := token_before gs _ k m b h (by omega)
      refine ⟨t, q, by simpa [Token.render] using h1, h2, ?_⟩
      rcases h3 with h3 | ⟨h3, _⟩
      · exact h3
      · omega
  match gs, hr, h with
  | [], _, h => simp [placedRunes] at h
  | (false, rs) :: gs, _, h => exact hfalse gs rs p m m (Nat.le_refl _) h
  | [(true, rs)], _, h =>
    simp only [placedRunes, if_true] at h
    rw [List.getElem?_eq_none (by simp; omega)] at h; cases h
  | (true, rs) :: (true, rs') :: gs, hr, h => exact absurd rfl (hr.alternate 0 (true, rs) (true, rs') rfl rfl)
  | (true, rs) :: (false, rs') :: gs, _, h =>
    obtain ⟨m, rfl⟩ : ∃ m', m = m' + 1 := ⟨m - 1, by omega⟩
    rw [placedRunes] at h
    simp only [if_true, List.getElem?_cons_succ] at h
    obtain ⟨t, q, h1, h2⟩ := hfalse gs rs' _ m m (Nat.le_refl _) h
    exact ⟨t, q, by rw [Token.render, List.getElem?_cons_succ]; exact h1, h2⟩

theorem tokenize_before (u : Uni) (dat : Bytes) : ∃ toks, Token.tokenize u [] dat 0 = .ok toks ∧ ∀ (m : Nat) b, (wordsAt u dat)[m]? = some b →
    m < toks.length ∧ (0 < m → ∃ t q, toks[m]? = some t ∧ t.pos = UInt32.ofNat q ∧ q + t.lit.length ≤ b.1) := by
  cases hv : utf8Valid dat
  · exact ⟨[], Token.tokenize_invalid u [] dat 0 hv, by simp [wordsAt_eq, hv]⟩
  · refine ⟨_, Token.tokenize_eq u [] dat 0 hv, fun m b h => ?_⟩
    simp only [wordsAt_eq, hv, if_true] at h
    rw [List.nil_append]
    obtain ⟨t, q, h1, _⟩ := token_before _ 0 m m b h (Nat.le_refl _)
    exact ⟨(List.getElem?_eq_some_iff.mp h1).1, fun hm => token_strictly_before (isRuns_runs _ _) 0 m hm b h⟩

theorem blotDoc_blotsOf (u : Uni) {c : Config} (hc : Consistent c) (dat : Bytes) : blotDoc u c [] dat 0 = .ok (blotsOf u c dat) := by
  rw [blotDoc_spec u c hc.seq hc.inter hc.prod hc.tok, blotsOf_eq]; rfl

theorem blotOffsetsLoop_spec (u : Uni) {c : Config} (hF : Findable c) (dat : Bytes) (toks : List Tok)
    (htoks : ∀ (m : Nat) b, (wordsAt u dat)[m]? = some b → m < toks.length ∧ (0 < m → ∃ t q, toks[m]? = some t ∧ t.pos = UInt32.ofNat q ∧ q + t.lit.length ≤ b.1))
    (bs : List UInt32) : ∀ i : Nat, (blotsOf u c dat).drop i = bs →
    ∃ out, Cmd.blotOffsetsLoop c toks i bs = .ok out ∧ out.map Prod.fst = bs.map (· % Index.blotMod c) ∧
      ∀ (k : Nat) r, k < bs.length → passage u c dat (i + k) = some r → ∃ b beg q, out[k]? = some (b, beg, UInt32.ofNat q) ∧ q < r.2 := by
  induction bs with
  | nil => intro i _; exact ⟨[], rfl, rfl, fun k r hk => by simp at hk⟩
  | cons b bs ih =>
    intro i hd
    have hlt : i < (blotsOf u c dat).length := by
      rcases Nat.lt_or_ge i (blotsOf u c dat).length with h | h
      · exact h
      · rw [List.drop_eq_nil_of_le h] at hd; cases hd
    have hcons := List.drop_eq_getElem_cons hlt
    rw [hd] at hcons
    injection hcons with e1 e2
    obtain ⟨r, hr⟩ := Option.isSome_iff_exists.mp ((passage_some hF.cons dat i).1.mp hlt)
    obtain ⟨a, a', ha, ha', hra, _, _⟩ := (passage_some hF.cons dat i).2 r hr
    have hN := Index.blotMod_toNat hF.shards hF.shardsSmall
    have hS : 0 < c.seqLen.toNat := by
      rw [hF.cons.seqLen_toNat]
      have h1 := hF.cons.seq
      have h2 := hF.cons.inter
      exact Nat.mul_pos (by omega) (by omega)
    have hidx : ((i : Int) + c.seqLen).toNat = i + c.seqLen.toNat := by omega
    have hnn : ¬ ((i : Int) + c.seqLen < 0) := by omega
    have k1 := (htoks i a ha).1
    obtain ⟨k2, k3⟩ := htoks _ a' ha'
    have hpos : 0 < i + c.seqLen.toNat := by clear k3; omega
    obtain ⟨t', q, k4, k5, k6⟩ := k3 hpos
    clear k3
    obtain ⟨out, o1, o2, o3⟩ := ih (i + 1) (by rw [e2])
    have hne := wordsAt_ne u dat a' (List.mem_of_getElem? ha')
    refine ⟨(b % Index.blotMod c, toks[i].pos, t'.pos + UInt32.ofNat t'.lit.length) :: out, ?_, ?_, ?_⟩
    · simp only [Cmd.blotOffsetsLoop, List.getElem?_eq_getElem k1, hidx, k4, hnn, if_false, bind, Except.bind, if_neg hN.2, o1, pure, Except.pure]
    · simp [o2]
    · intro k r' hk hr'
      cases k with
      | zero =>
        rw [Nat.add_zero, hr] at hr'
        injection hr' with hr'
        subst hr'
        refine ⟨b % Index.blotMod c, toks[i].pos, q + t'.lit.length, by rw [k5, UInt32.ofNat_add]; rfl, ?_⟩
        rw [hra]
        have := List.length_pos_iff.mpr hne
        simp only; omega
      | succ k =>
        rw [List.getElem?_cons_succ]
        exact o3 k r' (by simpa using hk) (by rw [← hr']; congr 1; omega)

/-- **C43**, what holds: with or without -offsets the command prints the blots of the file, in order, reduced modulo the number of
buckets, and does not fail.  Missing: the offsets, which are never right. -/
theorem C43_blots_partial (u : Uni) {c : Config} (h : Findable c) (dat : Bytes) :
    (∃ out, Cmd.blots u c dat = .ok out ∧ out.map UInt32.toNat = (blotsOf u c dat).map fun x => x.toNat % numBuckets c) ∧
    (∃ out, Cmd.blotOffsets u c dat = .ok out ∧ (out.map Prod.fst).map UInt32.toNat = (blotsOf u c dat).map fun x => x.toNat % numBuckets c) := by
  have hN := Index.blotMod_toNat h.shards h.shardsSmall
  have hm : ((blotsOf u c dat).map (· % Index.blotMod c)).map UInt32.toNat = (blotsOf u c dat).map fun x => x.toNat % numBuckets c := by
    rw [List.map_map]
    refine List.map_congr_left fun x _ => ?_
    simp only [Function.comp, UInt32.toNat_mod, hN.1]
  constructor
  · refine ⟨_, ?_, hm⟩
    simp only [Cmd.blots, blotDoc_blotsOf u h.cons, bind, Except.bind, hN.2, false_and, if_false]; rfl
  · obtain ⟨toks, ht, hb⟩ := tokenize_before u dat
    obtain ⟨out, o1, o2, _⟩ := blotOffsetsLoop_spec u h dat toks hb (blotsOf u c dat) 0 rfl
    refine ⟨out, ?_, by rw [o2, hm]⟩
    simp only [Cmd.blotOffsets, blotDoc_blotsOf u h.cons, tokenFunc_ok h.cons.tok, bind, Except.bind, ht]; exact o1

/-- **C43 is false** of every blot of every file (of less than 4 GiB): the end printed is always before the end of the passage of the blot,
as spaces between words are counted as words. -/
theorem C43_false_every (u : Uni) {c : Config} (h : Findable c) (dat : Bytes) (hl : dat.length < 2 ^ 32) :
    ∃ out, Cmd.blotOffsets u c dat = .ok out ∧ ∀ (i : Nat) r, passage u c dat i = some r →
      ∃ b beg stop, out[i]? = some (b, beg, stop) ∧ stop.toNat < r.2 := by
  obtain ⟨toks, ht, hb⟩ := tokenize_before u dat
  obtain ⟨out, o1, _, o3⟩ := blotOffsetsLoop_spec u h dat toks hb (blotsOf u c dat) 0 rfl
  refine ⟨out, by simp only [Cmd.blotOffsets, blotDoc_blotsOf u h.cons, tokenFunc_ok h.cons.tok, bind, Except.bind, ht]; exact o1, fun i r hr => ?_⟩
  obtain ⟨b, beg, q, g1, g2⟩ := o3 i r ((passage_some h.cons dat i).1.mpr (by rw [hr]; rfl)) (by rw [Nat.zero_add]; exact hr)
  obtain ⟨_, _, _, _, _, _, hle⟩ := (passage_some h.cons dat i).2 r hr
  exact ⟨b, beg, _, g1, by rw [toNat_ofNat_lt (by omega)]; exact g2⟩

/-- "a b c d.": the passages are 0:5 and 2:7, printed are 0:3 and 1:4 -/
example : passage asciiUni exFConfig [97, 32, 98, 32, 99, 32, 100, 46] 1 = some (2, 7) ∧
    (Cmd.blotOffsets asciiUni exFConfig [97, 32, 98, 32, 99, 32, 100, 46]).map (·.map (·.2)) = .ok [(0, 3), (1, 4)] := by decide +kernel

end Dupi.Props
