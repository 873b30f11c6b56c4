import Verif.Model.Token
import Verif.Proof.Utf8
import Verif.Spec.Runs
/-! The tokenizer computes the maximal runs of all runes but the last. -/

namespace Dupi.Token
open Dupi.Spec

/-- bytes of some runes -/
abbrev encAll (rs : List Rune) : Bytes := rs.flatMap Rune.enc

/-- tokens of some runs, starting at byte `p` -/
def render (off : UInt32) : Nat → List (Bool × List Rune) → List Tok
  | _, [] => []
  | p, (w, rs) :: gs =>
    ⟨if w then .word else .other, encAll rs, off + UInt32.ofNat p⟩ :: render off (p + (encAll rs).length) gs

theorem render_append (off : UInt32) (gs hs : List (Bool × List Rune)) : ∀ p,
    render off p (gs ++ hs) =
      render off p gs ++ render off (p + (encAll (gs.flatMap Prod.snd)).length) hs := by
  induction gs with
  | nil => intro p; simp [render]
  | cons g gs ih =>
    intro p
    obtain ⟨w, rs⟩ := g
    simp only [List.cons_append, render, ih, List.flatMap_cons, List.flatMap_append, List.length_append,
      Nat.add_assoc]

theorem IsRuns.snoc {f : Rune → Bool} {xs gs} (h : IsRuns f xs gs) (w : Bool) (ys : List Rune)
    (hy : ys ≠ []) (hu : ∀ y ∈ ys, f y = w) (hl : ∀ g, gs.getLast? = some g → g.1 ≠ w) :
    IsRuns f (xs ++ ys) (gs ++ [(w, ys)]) := by
  obtain ⟨h1, h2, h3, h4⟩ := h
  refine ⟨by simp [h1], ?_, ?_, ?_⟩
  · intro g hg
    rcases List.mem_append.mp hg with hg | hg
    · exact h2 g hg
    · rw [List.mem_singleton] at hg; subst hg; exact hy
  · intro g hg
    rcases List.mem_append.mp hg with hg | hg
    · exact h3 g hg
    · rw [List.mem_singleton] at hg; subst hg; exact hu
  · intro i a b ha hb
    by_cases hi : i + 1 < gs.length
    · rw [List.getElem?_append_left (by omega)] at ha hb
      exact h4 i a b ha hb
    · have hlt := (List.getElem?_eq_some_iff.mp hb).1
      simp only [List.length_append, List.length_singleton] at hlt
      have hil : i + 1 = gs.length := by omega
      rw [List.getElem?_append_left (by omega)] at ha
      rw [List.getElem?_append_right (by omega), hil] at hb
      simp at hb
      subst hb
      exact hl a (by rw [List.getLast?_eq_getElem?, show gs.length - 1 = i by omega, ha])

/-- state of the loop after at least one rune: `gs` are the runs emitted, `cur` the runes of the
pending run before the last rune `l` -/
structure LInv (u : Uni) (off : UInt32) (dst0 : List Tok) (done : List Rune) (s : St)
    (gs : List (Bool × List Rune)) (cur : List Rune) (l : Rune) : Prop where
  split : done = gs.flatMap Prod.snd ++ cur ++ [l]
  dst : s.dst = dst0 ++ render off 0 gs
  j : s.j = (encAll (gs.flatMap Prod.snd)).length
  i : s.i = s.j + (encAll cur).length
  cls : ∀ r ∈ cur ++ [l], isWordRune u r = s.inWord
  isRuns : IsRuns (isWordRune u) (gs.flatMap Prod.snd) gs
  last : ∀ g, gs.getLast? = some g → g.1 ≠ s.inWord

theorem slice_mid (a b c : Bytes) : slice (a ++ b ++ c) a.length (a.length + b.length) = .ok b := by
  simp [slice]

theorem emit_ok {d : Bytes} {off : UInt32} {s : St} {tag : Tag} {a b c : Bytes} (hd : d = a ++ b ++ c)
    (hj : s.j = a.length) (hi : s.i = a.length + b.length) :
    emit d off s tag = .ok { s with dst := s.dst ++ [⟨tag, b, off + UInt32.ofNat s.j⟩] } := by
  simp only [emit, hd, hj, hi, slice_mid, bind, Except.bind, pure, Except.pure]

theorem encAll_pos {d : Bytes} {rs : List Rune} (hne : rs ≠ []) (h : ∀ r ∈ rs, r ∈ decode d) :
    0 < (encAll rs).length := by
  cases rs with
  | nil => exact absurd rfl hne
  | cons r rs =>
    have := decode_enc_ne_nil d r (h r (by simp))
    have := List.length_pos_iff.mpr this
    simp only [encAll, List.flatMap_cons, List.length_append]; omega

theorem step_inv {u : Uni} {off : UInt32} {dst0 done s gs cur l} {d : Bytes} {r : Rune} {rest : List Rune}
    (h : LInv u off dst0 done s gs cur l) (hd : decode d = done ++ r :: rest) :
    ∃ s' gs' cur', step u d off s (encAll done).length r = .ok s' ∧
      LInv u off dst0 (done ++ [r]) s' gs' cur' r := by
  have hflat := decode_flat d
  rw [hd, h.split] at hflat
  have hmem : ∀ x ∈ cur ++ [l], x ∈ decode d := by
    intro x hx; rw [hd, h.split]; simp at hx ⊢; rcases hx with hx | hx <;> simp [hx]
  have hpos := encAll_pos (by simp) hmem
  have hlen : (encAll done).length = s.j + (encAll (cur ++ [l])).length := by
    rw [h.split, List.append_assoc, encAll, List.flatMap_append, List.length_append, h.j]
  have hd' : d = encAll (gs.flatMap Prod.snd) ++ encAll (cur ++ [l]) ++ encAll (r :: rest) := by
    rw [← hflat]; simp [encAll]
  by_cases hc : isWordRune u r = s.inWord
  · -- same class: the run continues
    refine ⟨{ s with i := (encAll done).length }, gs, cur ++ [l], ?_, ?_⟩
    · unfold step
      cases hw : s.inWord
      · rw [hw] at hc
        simp [hc, bind, Except.bind, pure, Except.pure]
      · rw [hw] at hc
        simp [hc, bind, Except.bind, pure, Except.pure]
    · refine ⟨by rw [h.split]; simp, h.dst, h.j, by simpa using hlen, ?_, h.isRuns, h.last⟩
      intro x hx
      rcases List.mem_append.mp hx with hx | hx
      · exact h.cls x hx
      · rw [List.mem_singleton] at hx; subst hx; exact hc
  · -- the class changes: the pending run is emitted
    have hruns := IsRuns.snoc h.isRuns s.inWord (cur ++ [l]) (by simp) h.cls h.last
    refine ⟨⟨s.dst ++ [⟨if s.inWord then .word else .other, encAll (cur ++ [l]), off + UInt32.ofNat s.j⟩],
        isWordRune u r, (encAll done).length, (encAll done).length⟩,
      gs ++ [(s.inWord, cur ++ [l])], [], ?_, ?_⟩
    · have hlt : s.j < (encAll done).length := by omega
      have hem : ∀ tag, emit d off { s with i := (encAll done).length } tag = _ :=
        fun tag => emit_ok (s := { s with i := (encAll done).length }) (tag := tag) hd' h.j
          (by rw [← h.j]; exact hlen)
      unfold step
      cases hw : s.inWord
      · rw [hw] at hc
        have hc : isWordRune u r = true := by simpa using hc
        simp only [hw] at hem
        simp only [hc, if_true, Bool.not_false, Bool.true_and, hlt, decide_true, hem, bind, Except.bind,
          pure, Except.pure]
        simp
      · rw [hw] at hc
        have hc : isWordRune u r = false := by simpa using hc
        simp only [hw] at hem
        simp only [hc, Bool.false_eq_true, if_true, if_false, Bool.true_and, hlt, decide_true, hem, bind,
          Except.bind, pure, Except.pure]
    · refine ⟨by rw [h.split]; simp, ?_, ?_, by simp [encAll], ?_, ?_, ?_⟩
      · rw [render_append, h.dst, List.append_assoc]
        simp only [render, Nat.zero_add, h.j]
      · rw [h.split]; simp [encAll]
      · intro x hx; simp at hx; subst hx; rfl
      · have := hruns; rwa [show gs.flatMap Prod.snd ++ (cur ++ [l])
          = (gs ++ [(s.inWord, cur ++ [l])]).flatMap Prod.snd by simp] at this
      · intro g hg
        rw [List.getLast?_append] at hg
        simp at hg
        subst hg
        exact fun h => hc h.symm

theorem loop_inv {u : Uni} {off : UInt32} {dst0} {d : Bytes} : ∀ (rest : List Rune) {done s gs cur l},
    LInv u off dst0 done s gs cur l → decode d = done ++ rest →
    ∃ s' gs' cur' l', loop u d off s (encAll done).length rest = .ok s' ∧
      LInv u off dst0 (done ++ rest) s' gs' cur' l' := by
  intro rest
  induction rest with
  | nil => intro done s gs cur l h _; exact ⟨s, gs, cur, l, rfl, by simpa using h⟩
  | cons r rest ih =>
    intro done s gs cur l h hd
    obtain ⟨s1, gs1, cur1, h1, h2⟩ := step_inv h hd
    obtain ⟨s', gs', cur', l', h3, h4⟩ := ih h2 (by simpa using hd)
    refine ⟨s', gs', cur', l', ?_, by simpa using h4⟩
    rw [loop]
    simp only [h1, bind, Except.bind]
    rw [show (encAll (done ++ [r])).length = (encAll done).length + r.enc.length by simp [encAll]] at h3
    exact h3

/-- **The tokenizer, completely specified**: on valid UTF-8 it appends the maximal runs of all
runes except the last one. -/
theorem tokenize_eq (u : Uni) (dst : List Tok) (d : Bytes) (off : UInt32) (hv : utf8Valid d = true) :
    tokenize u dst d off
      = .ok (dst ++ render off 0 (runs (isWordRune u) (decode d).dropLast)) := by
  unfold tokenize
  simp only [hv, Bool.not_true, Bool.false_eq_true, if_false]
  cases hrs : decode d with
  | nil => simp [loop, bind, Except.bind, pure, Except.pure, runs, render]
  | cons r rest =>
    -- the first rune
    have hfirst : step u d off ⟨dst, false, 0, 0⟩ 0 r = .ok ⟨dst, isWordRune u r, 0, 0⟩ := by
      unfold step
      cases isWordRune u r <;> simp [bind, Except.bind, pure, Except.pure]
    have hinv : LInv u off dst [r] ⟨dst, isWordRune u r, 0, 0⟩ [] [] r :=
      ⟨by simp, by simp [render], by simp, by simp, by simp, ⟨rfl, by simp, by simp, by simp⟩, by simp⟩
    obtain ⟨s, gs, cur, l, h1, h2⟩ := loop_inv (d := d) rest hinv (by simp [hrs])
    have h1' : loop u d off ⟨dst, false, 0, 0⟩ 0 (r :: rest) = .ok s := by
      rw [loop, hfirst]
      simpa [encAll, bind, Except.bind] using h1
    simp only [h1', bind, Except.bind]
    have hsplit := h2.split
    rw [List.singleton_append] at hsplit
    have hdl : (r :: rest).dropLast = gs.flatMap Prod.snd ++ cur := by rw [hsplit]; simp
    have hflat := decode_flat d
    rw [hrs, hsplit] at hflat
    have hd' : d = encAll (gs.flatMap Prod.snd) ++ encAll cur ++ l.enc := by rw [← hflat]; simp [encAll]
    by_cases hcur : cur = []
    · subst hcur
      have hi := h2.i
      simp only [encAll, List.flatMap_nil, List.length_nil, Nat.add_zero] at hi
      rw [hi, if_neg (by omega)]
      rw [hdl, List.append_nil, runs_unique _ _ _ h2.isRuns, h2.dst]
      rfl
    · have hpos : 0 < (encAll cur).length := encAll_pos (d := d) hcur (by
        intro x hx; rw [hrs, hsplit]; simp [hx])
      have hlt : s.j < s.i := by rw [h2.i]; omega
      rw [if_pos hlt]
      have hcls : ∀ y ∈ cur, isWordRune u y = s.inWord := fun y hy => h2.cls y (by simp [hy])
      have hruns := IsRuns.snoc h2.isRuns s.inWord cur hcur hcls h2.last
      rw [hdl, runs_unique _ _ _ hruns, render_append, ← List.append_assoc, ← h2.dst]
      have hem := fun tag => emit_ok (off := off) (s := s) (tag := tag) hd' h2.j (by rw [h2.i, h2.j])
      cases hw : s.inWord <;> simp [hem, pure, Except.pure, render, ← h2.j]

theorem tokenize_invalid (u : Uni) (dst : List Tok) (d : Bytes) (off : UInt32) (hv : utf8Valid d = false) :
    tokenize u dst d off = .ok dst := by
  simp [tokenize, hv, pure, Except.pure]

end Dupi.Token
