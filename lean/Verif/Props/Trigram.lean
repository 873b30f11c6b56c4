import Verif.Model.Attic
import Verif.Spec.Trigram
/-! # Trigrams: C36, C47 -/

namespace Dupi.Props
open Attic Spec

/-- the character of a letter -/
def chr (c : Nat) : Char := alphabet[c]?.getD '_'

theorem unletter_chr : ∀ c : UInt8, c < 37 → Char.ofNat (unletter c) = chr c.toNat := by
  intro c hc
  have : ∀ n : Fin 37, Char.ofNat (unletter (UInt8.ofNat n.val)) = chr n.val := by decide +kernel
  have h := this ⟨c.toNat, by exact hc⟩
  simpa using h

theorem letter_lt (r : Nat) : letter r < 37 := by
  rw [UInt8.lt_iff_toNat_lt, show (37 : UInt8).toNat = 37 from rfl]
  unfold letter
  split
  · rw [UInt8.toNat_ofNat']; omega
  · split
    · rw [UInt8.toNat_ofNat']; omega
    · split
      · rw [UInt8.toNat_ofNat']; omega
      · decide

theorem chr_letter (r : Nat) : chr (letter r).toNat = folded r := by
  by_cases h : r < 128
  · have : ∀ n : Fin 128, chr (letter n.val).toNat = folded n.val := by decide +kernel
    exact this ⟨r, h⟩
  · have h0 : '0'.toNat = 48 := rfl
    have h9 : '9'.toNat = 57 := rfl
    have ha : 'a'.toNat = 97 := rfl
    have hz : 'z'.toNat = 122 := rfl
    have hA : 'A'.toNat = 65 := rfl
    have hZ : 'Z'.toNat = 90 := rfl
    unfold letter folded
    rw [if_neg (by omega), if_neg (by omega), if_neg (by omega), if_neg (by omega), if_neg (by omega)]
    decide

/-- **C36.**  `Letter` folds any rune into the alphabet: the letter is below 37 and its character is the digit or small letter of the rune. -/
theorem C36_letter (r : Nat) : (letter r).toNat < 37 ∧ Char.ofNat (unletter (letter r)) = folded r :=
  ⟨letter_lt r, by rw [unletter_chr _ (letter_lt r), chr_letter]⟩

theorem shift_toNat (t : UInt16) {c : UInt8} (hc : c < 37) : (shift t c).toNat = t.toNat % 1369 * 37 + c.toNat := by
  have hc' : c.toNat < 37 := hc
  unfold shift
  rw [UInt16.toNat_add, UInt16.toNat_mul, UInt16.toNat_mod, UInt8.toNat_toUInt16, show numLetters.toNat = 37 from rfl,
    show (numLetters * numLetters).toNat = 1369 from rfl]
  have := Nat.mod_lt t.toNat (show 0 < 1369 by omega)
  omega

/-- the digits of a number below 37³ -/
def digs (n : Nat) : List Nat := [n / 1369 % 37, n / 37 % 37, n % 37]

theorem str_digs (t : UInt16) : (str t).map Char.ofNat = (digs t.toNat).map chr := by
  have h : ∀ x : UInt16, Char.ofNat (unletter (x % numLetters).toUInt8) = chr (x.toNat % 37) := by
    intro x
    have h0 : (x % numLetters).toNat = x.toNat % 37 := by rw [UInt16.toNat_mod]; rfl
    have h1 : ((x % numLetters).toUInt8).toNat = x.toNat % 37 := by
      rw [UInt16.toNat_toUInt8, h0]; have := Nat.mod_lt x.toNat (show 0 < 37 by omega); omega
    rw [unletter_chr _ (by rw [UInt8.lt_iff_toNat_lt, h1]; exact Nat.mod_lt _ (by decide)), h1]
  have hd : ∀ x : UInt16, (x / numLetters).toNat = x.toNat / 37 := fun x => by rw [UInt16.toNat_div]; rfl
  unfold str digs
  simp only [List.map_cons, List.map_nil, h, hd]
  rw [Nat.div_div_eq_div_mul]

theorem digs_shift (t : UInt16) {c : UInt8} (hc : c < 37) : digs (shift t c).toNat = (digs t.toNat).drop 1 ++ [c.toNat] := by
  have hc' : c.toNat < 37 := hc
  rw [shift_toNat t hc]
  simp only [digs, List.drop_succ_cons, List.drop_zero, List.cons_append, List.nil_append, List.cons.injEq, and_true]
  omega

theorem shift_lt (t : UInt16) {c : UInt8} (hc : c < 37) : (shift t c).toNat < 50653 := by
  have hc' : c.toNat < 37 := hc
  rw [shift_toNat t hc]; omega

theorem lastThree_snoc {l : List α} (a b c d : α) : lastThree (l ++ [a, b, c] ++ [d]) = (lastThree (l ++ [a, b, c])).drop 1 ++ [d] := by
  unfold lastThree
  simp only [List.length_append, List.length_cons, List.length_nil]
  rw [show l.length + 3 + 1 - 3 = (l ++ [a]).length by simp, show l.length + 3 - 3 = l.length by omega]
  rw [show l ++ [a, b, c] ++ [d] = (l ++ [a]) ++ ([b, c] ++ [d]) by simp, List.drop_left, List.drop_left]
  simp

theorem lastThree_split {l : List α} (h : 3 ≤ l.length) : ∃ k a b c, l = k ++ [a, b, c] := by
  refine ⟨l.take (l.length - 3), ?_⟩
  have h1 := (List.take_append_drop (l.length - 3) l).symm
  have h2 : (l.drop (l.length - 3)).length = 3 := by rw [List.length_drop]; omega
  match hd : l.drop (l.length - 3), h2 with
  | [a, b, c], _ => exact ⟨a, b, c, by rw [hd] at h1; exact h1⟩

theorem lastThree_append {k l : List α} (h : 3 ≤ l.length) : lastThree (k ++ l) = lastThree l := by
  unfold lastThree
  rw [List.length_append, List.drop_append, List.drop_eq_nil_of_le (by omega), List.nil_append]
  congr 1; omega

theorem lastThree_snoc' {l : List α} (h : 3 ≤ l.length) (d : α) : lastThree (l ++ [d]) = (lastThree l).drop 1 ++ [d] := by
  obtain ⟨k, a, b, c, rfl⟩ := lastThree_split h
  exact lastThree_snoc a b c d

theorem digs_fold (t : UInt16) (ls : List UInt8) (h : ∀ c ∈ ls, c < 37) :
    digs (ls.foldl shift t).toNat = lastThree (digs t.toNat ++ ls.map (·.toNat)) := by
  have key : ∀ (ls : List UInt8) (pre : List Nat) (t : UInt16), (∀ c ∈ ls, c < 37) → 3 ≤ pre.length → digs t.toNat = lastThree pre →
      digs (ls.foldl shift t).toNat = lastThree (pre ++ ls.map (·.toNat)) := by
    intro ls
    induction ls with
    | nil => intro pre t _ _ h; simpa using h
    | cons c ls ih =>
      intro pre t hc hp h
      rw [List.foldl_cons, List.map_cons, List.append_cons]
      refine ih _ _ (fun c' h' => hc c' (by simp [h'])) (by simp; omega) ?_
      rw [digs_shift t (hc c (by simp)), h, lastThree_snoc' hp]
  exact key ls _ t h (by simp [digs]) (by simp [digs, lastThree])

theorem fold_lt (ls : List UInt8) (t : UInt16) (h : ∀ c ∈ ls, c < 37) (hn : ls ≠ [] ∨ t.toNat < 50653) : (ls.foldl shift t).toNat < 50653 := by
  induction ls generalizing t with
  | nil => exact hn.elim (fun h => absurd rfl h) id
  | cons c ls ih => exact ih _ (fun c' h' => h c' (by simp [h'])) (.inr (shift_lt t (h c (by simp))))

theorem map_lastThree (f : α → β) (l : List α) : (lastThree l).map f = lastThree (l.map f) := by
  unfold lastThree; rw [List.map_drop, List.length_map]

theorem digs_zero : digs zero.toNat = [36, 36, 36] := by decide

/-- **C36.**  From the initial value, after any sequence of letters the value is below `NumTrigrams` and its string is made of the last three of
the letters, with underscores before them. -/
theorem C36_shift (ls : List UInt8) (h : ∀ c ∈ ls, c < 37) :
    (ls.foldl shift zero).toNat < 37 * 37 * 37 ∧
      (str (ls.foldl shift zero)).map Char.ofNat = lastThree (['_', '_', '_'] ++ ls.map fun c => chr c.toNat) := by
  refine ⟨fold_lt ls zero h (.inr (by decide)), ?_⟩
  rw [str_digs, digs_fold _ _ h, map_lastThree, digs_zero, List.map_append, List.map_map]
  rfl

/-- **C36.**  From any 16-bit value at all, one letter brings the value below `NumTrigrams`, and from the third letter on nothing is left of it. -/
theorem C36_shift_any (t : UInt16) (ls : List UInt8) (h : ∀ c ∈ ls, c < 37) :
    (ls ≠ [] → (ls.foldl shift t).toNat < 37 * 37 * 37) ∧
      (3 ≤ ls.length → (str (ls.foldl shift t)).map Char.ofNat = lastThree (ls.map fun c => chr c.toNat)) := by
  refine ⟨fun hn => fold_lt ls t h (.inl hn), fun h3 => ?_⟩
  rw [str_digs, digs_fold _ _ h, map_lastThree, List.map_append, List.map_map]
  exact lastThree_append (by simpa using h3)

/-- Different values below `NumTrigrams` have different strings. -/
theorem C36_injective (t u : UInt16) (ht : t.toNat < 37 * 37 * 37) (hu : u.toNat < 37 * 37 * 37) (h : str t = str u) : t = u := by
  have h1 := congrArg (List.map Char.ofNat) h
  rw [str_digs, str_digs] at h1
  have inj : ∀ a b : Fin 37, chr a.val = chr b.val → a = b := by decide +kernel
  have inj' : ∀ a b : Nat, a < 37 → b < 37 → chr a = chr b → a = b := fun a b ha hb hab => by
    have := inj ⟨a, ha⟩ ⟨b, hb⟩ hab; simpa using this
  simp only [digs, List.map_cons, List.map_nil, List.cons.injEq, and_true] at h1
  obtain ⟨e0, e1, e2⟩ := h1
  have m := fun n => Nat.mod_lt n (show 0 < 37 by omega)
  have e0 := inj' _ _ (m _) (m _) e0
  have e1 := inj' _ _ (m _) (m _) e1
  have e2 := inj' _ _ (m _) (m _) e2
  apply UInt16.toNat_inj.mp
  omega

/-! ## texts -/

/-- the three characters of a trigram -/
def show3 (t : UInt16) : List Char := (str t).map Char.ofNat

/-- what the trigram code makes of characters, three at a time, `pre` before them -/
def sliding : List Char → List Char → List (List Char)
  | _, [] => []
  | pre, c :: cs => (pre.drop 1 ++ [c]) :: sliding (pre.drop 1 ++ [c]) cs

theorem show3_shift (t : UInt16) (r : Nat) : show3 (shift t (letter r)) = (show3 t).drop 1 ++ [folded r] := by
  unfold show3
  rw [str_digs, str_digs, digs_shift t (letter_lt r), List.map_append, ← List.map_drop, List.map_singleton, chr_letter]

theorem letter_other : letter 95 = cOther := by decide
theorem folded_other : folded 95 = '_' := by decide

theorem show3_shift_other (t : UInt16) : show3 (shift t cOther) = (show3 t).drop 1 ++ ['_'] := by
  have := show3_shift t 95; rwa [letter_other, folded_other] at this

/-- the characters left as state -/
def after : List Char → List Char → List Char
  | pre, [] => pre
  | pre, c :: cs => after (pre.drop 1 ++ [c]) cs

theorem sliding_append : ∀ (a pre b : List Char), sliding pre (a ++ b) = sliding pre a ++ sliding (after pre a) b := by
  intro a
  induction a with
  | nil => intro pre b; rfl
  | cons c a ih => intro pre b; simp [sliding, after, ih]

theorem after_append : ∀ (a pre b : List Char), after pre (a ++ b) = after (after pre a) b := by
  intro a
  induction a with
  | nil => intro pre b; rfl
  | cons c a ih => intro pre b; simp [after, ih]

theorem wordLoop_spec : ∀ (w : Bytes) (t : UInt16), show3 (wordLoop t w).1 = after (show3 t) (w.map fun b => folded b.toNat) ∧
    (wordLoop t w).2.map show3 = sliding (show3 t) (w.map fun b => folded b.toNat) ∧ ∀ x ∈ (wordLoop t w).2, x.toNat < 50653 := by
  intro w
  induction w with
  | nil => intro t; exact ⟨rfl, rfl, by simp [wordLoop]⟩
  | cons b w ih =>
    intro t
    obtain ⟨h1, h2, h3⟩ := ih (shift t (letter b.toNat))
    rw [show3_shift] at h1 h2
    refine ⟨h1, ?_, ?_⟩
    · simp only [wordLoop, List.map_cons, sliding, h2, show3_shift]
    · intro x hx
      simp only [wordLoop, List.mem_cons] at hx
      rcases hx with rfl | hx
      · exact shift_lt t (letter_lt _)
      · exact h3 x hx

theorem triples_sliding : ∀ (cs : List Char) (a b : Char), triples (a :: b :: cs) = sliding ['_', a, b] cs := by
  intro cs
  induction cs with
  | nil => intro a b; rfl
  | cons c cs ih =>
    intro a b
    rw [triples, ih]
    simp only [sliding, List.drop_succ_cons, List.drop_zero, List.cons_append, List.nil_append]
    congr 1
    cases cs with
    | nil => rfl
    | cons => simp [sliding]

theorem sliding_drop (a b : Char) (cs pre : List Char) (hp : pre.length = 3) : (sliding pre (a :: b :: cs)).drop 2 = triples (a :: b :: cs) := by
  match pre, hp with
  | [x, y, z], _ =>
    rw [triples_sliding]
    simp only [sliding, List.drop_succ_cons, List.drop_zero, List.cons_append, List.nil_append]
    cases cs with
    | nil => rfl
    | cons => simp [sliding]

theorem fromTokensLoop_spec : ∀ (toks : List Tok) (t : UInt16) (dst : List UInt16), (∀ tok ∈ toks, tok.tag ≠ .eod) →
    ∃ out, fromTokensLoop t dst toks = .ok (dst ++ out) ∧ out.map show3 = sliding (show3 t) (foldedText toks) ∧ ∀ x ∈ out, x.toNat < 50653 := by
  intro toks
  induction toks with
  | nil => intro t dst _; exact ⟨[], by simp [fromTokensLoop], rfl, by simp⟩
  | cons tok toks ih =>
    intro t dst h
    have hrest : ∀ tok ∈ toks, tok.tag ≠ .eod := fun x hx => h x (by simp [hx])
    cases ht : tok.tag with
    | other =>
      obtain ⟨out, h1, h2, h3⟩ := ih (shift t cOther) (dst ++ [shift t cOther]) hrest
      refine ⟨shift t cOther :: out, ?_, ?_, ?_⟩
      · simp only [fromTokensLoop, fromToken, ht, bind, Except.bind, h1, List.append_assoc, List.singleton_append]
      · rw [List.map_cons, h2, show3_shift_other]
        simp [foldedText, ht, sliding]
      · intro x hx
        rcases List.mem_cons.mp hx with rfl | hx
        · exact shift_lt t (by decide)
        · exact h3 x hx
    | word =>
      obtain ⟨g1, g2, g3⟩ := wordLoop_spec tok.lit t
      obtain ⟨out, h1, h2, h3⟩ := ih (wordLoop t tok.lit).1 (dst ++ (wordLoop t tok.lit).2) hrest
      refine ⟨(wordLoop t tok.lit).2 ++ out, ?_, ?_, ?_⟩
      · simp only [fromTokensLoop, fromToken, ht, bind, Except.bind, h1, List.append_assoc]
      · rw [List.map_append, h2, g1, g2]
        simp only [foldedText, ht, List.flatMap_cons]
        rw [sliding_append]
      · intro x hx
        rcases List.mem_append.mp hx with hx | hx
        · exact g3 x hx
        · exact h3 x hx
    | eod => exact absurd ht (h tok (by simp))

theorem sliding_length : ∀ cs pre, (sliding pre cs).length = cs.length := by
  intro cs
  induction cs with
  | nil => intro _; rfl
  | cons c cs ih => intro pre; simp [sliding, ih]

/-- **C47.**  `FromTokens` of words and separators gives the triples of consecutive characters of the folded text, each below `NumTrigrams`;
a text of fewer than two characters makes it panic. -/
theorem C47_fromTokens (toks : List Tok) (h : ∀ tok ∈ toks, tok.tag ≠ .eod) :
    (2 ≤ (foldedText toks).length → ∃ out, fromTokens [] toks = .ok out ∧ out.map show3 = triples (foldedText toks) ∧
      ∀ x ∈ out, x.toNat < 37 * 37 * 37) ∧
    ((foldedText toks).length < 2 → fromTokens [] toks = panic') := by
  obtain ⟨out, h1, h2, h3⟩ := fromTokensLoop_spec toks zero [] h
  have hl : out.length = (foldedText toks).length := by
    have := congrArg List.length h2; rwa [List.length_map, sliding_length] at this
  constructor
  · intro h4
    refine ⟨out.drop 2, ?_, ?_, fun x hx => h3 x (List.mem_of_mem_drop hx)⟩
    · have : ¬ out.length < 2 := by omega
      simp only [fromTokens, h1, bind, Except.bind, pure, Except.pure, List.nil_append, if_neg this]
    · rw [List.map_drop, h2]
      match hf : foldedText toks, h4 with
      | a :: b :: cs, _ => exact sliding_drop a b cs _ (by decide)
  · intro h4
    have : out.length < 2 := by omega
    simp only [fromTokens, h1, bind, Except.bind, List.nil_append, if_pos this]

/-- A buffer with something in it loses its first two elements instead. -/
theorem C47_false_dst (toks : List Tok) (h : ∀ tok ∈ toks, tok.tag ≠ .eod) (x y : UInt16) (dst : List UInt16) :
    ∃ out, fromTokens (x :: y :: dst) toks = .ok (dst ++ out) ∧ out.length = (foldedText toks).length := by
  obtain ⟨out, h1, h2, _⟩ := fromTokensLoop_spec toks zero (x :: y :: dst) h
  refine ⟨out, ?_, by have := congrArg List.length h2; rwa [List.length_map, sliding_length] at this⟩
  simp [fromTokens, h1, bind, Except.bind, pure, Except.pure]

/-- An end of document makes it panic. -/
theorem C47_eod (toks rest : List Tok) (eod : Tok) (he : eod.tag = .eod) (h : ∀ tok ∈ toks, tok.tag ≠ .eod) (dst : List UInt16) :
    fromTokens dst (toks ++ eod :: rest) = panic' := by
  have : ∀ (toks : List Tok) (t : UInt16) (dst : List UInt16), (∀ tok ∈ toks, tok.tag ≠ .eod) →
      fromTokensLoop t dst (toks ++ eod :: rest) = panic' := by
    intro toks
    induction toks with
    | nil => intro t dst _; simp [fromTokensLoop, fromToken, he, bind, Except.bind, panic']
    | cons tok toks ih =>
      intro t dst h
      have hrest : ∀ tok ∈ toks, tok.tag ≠ .eod := fun x hx => h x (by simp [hx])
      cases ht : tok.tag with
      | other => simp only [List.cons_append, fromTokensLoop, fromToken, ht, bind, Except.bind]; exact ih _ _ hrest
      | word => simp only [List.cons_append, fromTokensLoop, fromToken, ht, bind, Except.bind]; exact ih _ _ hrest
      | eod => exact absurd ht (h tok (by simp))
  simp [fromTokens, this toks zero dst h, bind, Except.bind, panic']

/-- what `VisitTokens` should report: three characters at a time with `pre` before the text; an end of document counts as three zeros -/
def visited : List Char → List Tok → List (List Char)
  | _, [] => []
  | pre, tok :: toks => match tok.tag with
    | .eod => visited ['0', '0', '0'] toks
    | _ => sliding pre (foldedText [tok]) ++ visited (after pre (foldedText [tok])) toks

/-- **C47.**  `VisitTokens` reports every character of the folded text with its two predecessors; there are underscores before the first
text and (not underscores but) zeros before the texts after an end of document. -/
theorem C47_visit (toks : List Tok) : ∃ out, visitTokens zero toks = .ok out ∧ out.map show3 = visited ['_', '_', '_'] toks := by
  have : ∀ (toks : List Tok) (t : UInt16), ∃ out, visitTokens t toks = .ok out ∧ out.map show3 = visited (show3 t) toks := by
    intro toks
    induction toks with
    | nil => intro t; exact ⟨[], rfl, rfl⟩
    | cons tok toks ih =>
      intro t
      cases ht : tok.tag with
      | other =>
        obtain ⟨out, h1, h2⟩ := ih (shift t cOther)
        refine ⟨shift t cOther :: out, ?_, ?_⟩
        · simp [visitTokens, visitToken, ht, bind, Except.bind, h1, pure, Except.pure]
        · rw [show3_shift_other] at h2
          simp [visited, ht, foldedText, sliding, after, h2, show3_shift_other]
      | word =>
        obtain ⟨g1, g2, _⟩ := wordLoop_spec tok.lit t
        obtain ⟨out, h1, h2⟩ := ih (wordLoop t tok.lit).1
        refine ⟨(wordLoop t tok.lit).2 ++ out, ?_, ?_⟩
        · simp [visitTokens, visitToken, ht, bind, Except.bind, h1, pure, Except.pure]
        · rw [g1] at h2
          simp [visited, ht, foldedText, h2, g2]
      | eod =>
        obtain ⟨out, h1, h2⟩ := ih 0
        refine ⟨out, ?_, ?_⟩
        · simp [visitTokens, visitToken, ht, bind, Except.bind, h1, pure, Except.pure]
        · rw [h2, show show3 0 = ['0', '0', '0'] by decide]
          simp [visited, ht]
  exact this toks zero

example : foldedText [⟨.word, "aB".toUTF8.toList, 0⟩, ⟨.other, ", ".toUTF8.toList, 2⟩, ⟨.word, "9z".toUTF8.toList, 4⟩] = "ab_9z".toList := by decide +kernel
example : (fromTokens [] [⟨.word, [97, 66], 0⟩, ⟨.other, [44, 32], 2⟩, ⟨.word, [57, 122], 4⟩]).toOption.map (·.map show3) =
    some [['a', 'b', '_'], ['b', '_', '9'], ['_', '9', 'z']] := by decide +kernel

end Dupi.Props
