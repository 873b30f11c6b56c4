import Verif.Proof.Token
import Verif.Proof.Words
/-! # C08, C09, C10: the tokenizer -/

namespace Dupi.Props
open Dupi.Token Dupi.Spec

/-- letter or digit according to the Unicode tables -/
def IsWordChar (u : Uni) (c : Char) : Prop := u.isLetter c.toNat = true ∨ u.isDigit c.toNat = true

private theorem render_lits (off : UInt32) (gs : List (Bool × List Rune)) : ∀ p,
    (render off p gs).flatMap Tok.lit = encAll (gs.flatMap Prod.snd) := by
  induction gs with
  | nil => intro p; rfl
  | cons g gs ih => intro p; obtain ⟨w, rs⟩ := g; simp [render, ih]

private theorem render_get (off : UInt32) (gs : List (Bool × List Rune)) : ∀ (p i : Nat) t,
    (render off p gs)[i]? = some t → ∃ w rs, gs[i]? = some (w, rs) ∧
      t.tag = (if w then .word else .other) ∧ t.lit = encAll rs ∧
      t.pos = off + UInt32.ofNat (p + ((render off p gs).take i |>.flatMap Tok.lit).length) := by
  induction gs with
  | nil => intro p i t h; simp [render] at h
  | cons g gs ih =>
    obtain ⟨w, rs⟩ := g
    intro p i t h
    cases i with
    | zero => simp [render] at h; subst h; exact ⟨w, rs, rfl, rfl, rfl, by simp [render]⟩
    | succ i =>
      simp only [render, List.getElem?_cons_succ] at h
      obtain ⟨w', rs', h1, h2, h3, h4⟩ := ih _ i t h
      refine ⟨w', rs', by simpa using h1, h2, h3, ?_⟩
      rw [h4]
      simp [render, Nat.add_assoc]

/-- **C08 is false**: the last character is dropped ("ab" is tokenized as "a"). -/
theorem C08_false : utf8 ['a', 'b'] = [97, 98] ∧
    tokenize asciiUni [] [97, 98] 0 = .ok [⟨.word, [97], 0⟩] := by decide +kernel

/-- **C08**, what holds: the literals concatenate to the text without its last character.
Missing: that last character, which never makes it into any token. -/
theorem C08_cover_partial (u : Uni) (dst : List Tok) (cs : List Char) (off : UInt32) :
    ∃ ts, tokenize u dst (utf8 cs) off = .ok (dst ++ ts) ∧ ts.flatMap Tok.lit = utf8 cs.dropLast := by
  refine ⟨_, tokenize_eq u dst _ off (utf8Valid_utf8 cs), ?_⟩
  rw [render_lits, (isRuns_runs _ _).cover, decode_utf8, ← List.map_dropLast]
  exact flat_runeOf _

/-- the last character is lost whenever there is one -/
theorem C08_lost (u : Uni) (dst : List Tok) (cs : List Char) (off : UInt32) (hd : cs ≠ []) :
    ∃ ts, tokenize u dst (utf8 cs) off = .ok (dst ++ ts) ∧ (ts.flatMap Tok.lit).length < (utf8 cs).length := by
  obtain ⟨ts, h1, h2⟩ := C08_cover_partial u dst cs off
  refine ⟨ts, h1, ?_⟩
  have hlast := List.length_pos_iff.mpr (utf8EncodeChar_ne_nil (cs.getLast hd))
  rw [h2]
  conv => rhs; rw [← List.dropLast_concat_getLast hd]
  simp only [utf8, List.flatMap_append, List.length_append, List.flatMap_cons, List.flatMap_nil, List.append_nil]
  omega

private theorem tokens_bytes (u : Uni) (dst : List Tok) (d : Bytes) (off : UInt32) (hv : utf8Valid d = true) :
    ∃ ts, tokenize u dst d off = .ok (dst ++ ts) ∧
      (∀ t ∈ ts, t.lit ≠ [] ∧ utf8Valid t.lit = true ∧ (t.tag = .word ∨ t.tag = .other)) ∧
      (∀ t ∈ ts, t.tag = .word → ∀ r ∈ decode t.lit, Token.isWordRune u r = true) ∧
      (∀ t ∈ ts, t.tag = .other → ∀ r ∈ decode t.lit, Token.isWordRune u r = false) ∧
      (∀ (i : Nat) s t, ts[i]? = some s → ts[i + 1]? = some t → s.tag ≠ t.tag) ∧
      (∀ (i : Nat) t, ts[i]? = some t → ∃ n : Nat, t.pos = off + UInt32.ofNat n ∧
        (d.drop n).take t.lit.length = t.lit ∧ n = ((ts.take i).flatMap Tok.lit).length) := by
  obtain ⟨hcov, hne, huni, halt⟩ := isRuns_runs (isWordRune u) (decode d).dropLast
  refine ⟨_, tokenize_eq u dst d off hv, ?_⟩
  generalize runs (isWordRune u) (decode d).dropLast = gs at *
  have hval := (utf8Valid_iff d).mp hv
  -- the runes of one run
  have hdec : ∀ g ∈ gs, decode (encAll g.2) = g.2 ∧ ∀ r ∈ g.2, r.cp.isSome := by
    intro g hg
    obtain ⟨pre, post, rfl⟩ := List.append_of_mem hg
    have hd : ∃ l, decode d = (pre.flatMap Prod.snd) ++ g.2 ++ (post.flatMap Prod.snd ++ l) := by
      have hcov' := hcov
      simp only [List.flatMap_append, List.flatMap_cons] at hcov'
      by_cases h0 : decode d = []
      · rw [h0] at hcov'
        simp only [List.dropLast_nil] at hcov'
        exact ⟨[], by rw [h0, List.append_nil, List.append_assoc, hcov']⟩
      · exact ⟨[(decode d).getLast h0], by
          conv => lhs; rw [← List.dropLast_concat_getLast h0, ← hcov']
          simp⟩
    obtain ⟨l, hd⟩ := hd
    have hv' : ∀ r ∈ g.2, r.cp.isSome := fun r hr => hval r (by rw [hd]; simp [hr])
    exact ⟨decode_middle _ _ _ d hd hv', hv'⟩
  have hmem : ∀ t ∈ render off 0 gs, ∃ w rs, (w, rs) ∈ gs ∧ t.tag = (if w then .word else .other) ∧
      t.lit = encAll rs := by
    intro t ht
    obtain ⟨i, hi⟩ := List.getElem?_of_mem ht
    obtain ⟨w, rs, h1, h2, h3, _⟩ := render_get off gs 0 i t hi
    exact ⟨w, rs, List.mem_of_getElem? h1, h2, h3⟩
  refine ⟨?_, ?_, ?_, ?_, ?_⟩
  · intro t ht
    obtain ⟨w, rs, hg, h1, h2⟩ := hmem t ht
    obtain ⟨hd1, hd2⟩ := hdec _ hg
    refine ⟨?_, ?_, ?_⟩
    · intro h0
      rw [h2] at h0
      simp only [h0, decode_nil] at hd1
      exact hne _ hg hd1.symm
    · rw [h2, utf8Valid_iff]; simp only at hd1 hd2; rw [hd1]; exact hd2
    · rw [h1]; cases w <;> simp
  · intro t ht htag r hr
    obtain ⟨w, rs, hg, h1, h2⟩ := hmem t ht
    obtain ⟨hd1, hd2⟩ := hdec _ hg
    rw [h2] at hr; simp only at hd1; rw [hd1] at hr
    have hw : w = true := by rw [h1] at htag; cases w <;> simp at htag ⊢
    rw [huni _ hg r hr, hw]
  · intro t ht htag r hr
    obtain ⟨w, rs, hg, h1, h2⟩ := hmem t ht
    obtain ⟨hd1, hd2⟩ := hdec _ hg
    rw [h2] at hr; simp only at hd1; rw [hd1] at hr
    have hw : w = false := by rw [h1] at htag; cases w <;> simp at htag ⊢
    rw [huni _ hg r hr, hw]
  · intro i s t hs ht
    obtain ⟨w, rs, h1, h2, _⟩ := render_get off gs 0 i s hs
    obtain ⟨w', rs', h1', h2', _⟩ := render_get off gs 0 (i + 1) t ht
    have := halt i _ _ h1 h1'
    rw [h2, h2']
    cases w <;> cases w' <;> simp at this ⊢
  · intro i t ht
    obtain ⟨w, rs, h1, h2, h3, h4⟩ := render_get off gs 0 i t ht
    refine ⟨_, by rw [h4, Nat.zero_add], ?_, rfl⟩
    have hlits := render_lits off gs 0
    rw [hcov] at hlits
    obtain ⟨tl, htl⟩ : ∃ tl, d = (render off 0 gs).flatMap Tok.lit ++ tl := by
      rw [hlits]
      by_cases h0 : decode d = []
      · exact ⟨d, by rw [h0]; rfl⟩
      · exact ⟨encAll [(decode d).getLast h0], by
          rw [← List.flatMap_append, List.dropLast_concat_getLast h0, decode_flat]⟩
    have hsp : render off 0 gs = (render off 0 gs).take i ++ t :: (render off 0 gs).drop (i + 1) := by
      obtain ⟨hlt, he⟩ := List.getElem?_eq_some_iff.mp ht
      rw [← he, ← List.drop_eq_getElem_cons hlt, List.take_append_drop]
    have hd2 : d = ((render off 0 gs).take i).flatMap Tok.lit ++
        (t.lit ++ (((render off 0 gs).drop (i + 1)).flatMap Tok.lit ++ tl)) := by
      conv => lhs; rw [htl, hsp]
      simp
    conv => lhs; rw [hd2]
    simp

/-- **C09.** Tokens are non-empty, Word tokens hold only letters and digits, Other tokens none,
neighbours have different tags, and `Pos` is the offset plus the byte position in the data, at
which the literal is indeed found. -/
theorem C09_tokens (u : Uni) (dst : List Tok) (cs : List Char) (off : UInt32) :
    ∃ ts, tokenize u dst (utf8 cs) off = .ok (dst ++ ts) ∧
      (∀ t ∈ ts, ∃ w : List Char, w ≠ [] ∧ t.lit = utf8 w ∧
        (t.tag = .word ∧ (∀ c ∈ w, IsWordChar u c) ∨ t.tag = .other ∧ ∀ c ∈ w, ¬ IsWordChar u c)) ∧
      (∀ (i : Nat) s t, ts[i]? = some s → ts[i + 1]? = some t → s.tag ≠ t.tag) ∧
      (∀ (i : Nat) t, ts[i]? = some t → ∃ n : Nat, t.pos = off + UInt32.ofNat n ∧
        ((utf8 cs).drop n).take t.lit.length = t.lit ∧ n = ((ts.take i).flatMap Tok.lit).length) := by
  obtain ⟨ts, h1, h2, h3, h4, h5, h6⟩ := tokens_bytes u dst (utf8 cs) off (utf8Valid_utf8 cs)
  refine ⟨ts, h1, fun t ht => ?_, h5, h6⟩
  obtain ⟨g1, g2, g3⟩ := h2 t ht
  obtain ⟨w, w1, w2⟩ := utf8Valid_text g2
  have hw := text_some w1
  have hm : ∀ c ∈ w, runeOf c ∈ decode t.lit := fun c hc => by rw [w2]; exact List.mem_map_of_mem hc
  refine ⟨w, fun h => g1 (by rw [hw, h]; rfl), hw, ?_⟩
  rcases g3 with g | g
  · refine Or.inl ⟨g, fun c hc => ?_⟩
    have := h3 t ht g _ (hm c hc)
    rw [isWordRune_runeOf] at this
    simpa [isWordChar, IsWordChar] using this
  · refine Or.inr ⟨g, fun c hc => ?_⟩
    have := h4 t ht g _ (hm c hc)
    rw [isWordRune_runeOf] at this
    simpa [isWordChar, IsWordChar] using this

/-- **C10.** Data that is not valid UTF-8 (not the encoding of any text) yields no token. -/
theorem C10_invalid (u : Uni) (dst : List Tok) (d : Bytes) (off : UInt32) (hv : ¬ IsText d) :
    tokenize u dst d off = .ok dst := by
  refine tokenize_invalid u dst d off ?_
  rw [utf8Valid_false_iff]
  cases h : text d with
  | none => rfl
  | some cs => exact absurd ⟨cs, text_some h⟩ hv

-- non-vacuity
example : utf8 ['é', ' ', 'a', '.'] = [0xC3, 0xA9, 32, 97, 46] := by decide +kernel
example : tokenize asciiUni [] [97, 32, 98, 99, 46, 10] 5
    = .ok [⟨.word, [97], 5⟩, ⟨.other, [32], 6⟩, ⟨.word, [98, 99], 7⟩, ⟨.other, [46], 9⟩] := by decide +kernel
example : ¬ (∃ cs, ([97, 0xFF] : Bytes) = utf8 cs) ∧ ¬ (∃ cs, ([0xED, 0xA0, 0x80] : Bytes) = utf8 cs) ∧
    ¬ ∃ cs, ([0xC0, 0x80] : Bytes) = utf8 cs := by
  have h : ∀ d : Bytes, utf8Valid d = false → ¬ ∃ cs, d = utf8 cs := by
    rintro d hd ⟨cs, rfl⟩; rw [utf8Valid_utf8] at hd; cases hd
  exact ⟨h _ (by decide +kernel), h _ (by decide +kernel), h _ (by decide +kernel)⟩

end Dupi.Props
