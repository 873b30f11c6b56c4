import Verif.Proof.JsonWrite
/-! # encoding/json reads nothing but JSON texts -/

namespace Dupi.Json
open Spec

/-! ## strings: what is read -/

theorem hex4_some {s r : Bytes} {n : Nat} (h : hex4 s = some (n, r)) : ∃ u, s = u ++ r ∧ Hex4 n u := by
  match s, h with
  | a :: b :: c :: d :: t, h =>
    simp only [hex4, bind, Option.bind, pure] at h
    cases ha : hexVal a with
    | none => simp [ha] at h
    | some p =>
    cases hb : hexVal b with
    | none => simp [ha, hb] at h
    | some q =>
    cases hc : hexVal c with
    | none => simp [ha, hb, hc] at h
    | some x =>
    cases hd : hexVal d with
    | none => simp [ha, hb, hc, hd] at h
    | some y =>
    simp only [ha, hb, hc, hd, Option.some.injEq, Prod.mk.injEq] at h
    obtain ⟨h1, h2⟩ := h
    subst h2
    exact ⟨[a, b, c, d], rfl, a, b, c, d, rfl, p, q, x, y, by rw [hexOf_hexVal, ha], by rw [hexOf_hexVal, hb], by rw [hexOf_hexVal, hc],
      by rw [hexOf_hexVal, hd], by omega⟩

theorem hex4_no_quote {n : Nat} {u : Bytes} (h : Hex4 n u) : (34 : UInt8) ∉ u := by
  obtain ⟨a, b, c, d, rfl, p, q, r, s, h1, h2, h3, h4, _⟩ := h
  have ne : ∀ {x : UInt8} {k : Nat}, hexOf x = some k → x ≠ 34 := by
    rintro x k hx rfl; cases hx
  simp only [List.mem_cons, List.not_mem_nil, or_false, not_or]
  exact ⟨(ne h1).symm, (ne h2).symm, (ne h3).symm, (ne h4).symm⟩

/-- bytes without a quote that begin a text up to a quote begin what is before the quote -/
theorem before_quote {t p r rest : Bytes} (hp : (34 : UInt8) ∉ p) (h : t ++ 34 :: rest = p ++ r) : ∃ q, t = p ++ q ∧ r = q ++ 34 :: rest := by
  induction p generalizing t with
  | nil => exact ⟨t, rfl, h.symm⟩
  | cons x p ih =>
    cases t with
    | nil =>
      simp only [List.nil_append, List.cons_append, List.cons.injEq] at h
      exact absurd (by rw [h.1]; simp) hp
    | cons y t =>
      simp only [List.cons_append, List.cons.injEq] at h
      obtain ⟨q, h1, h2⟩ := ih (fun hm => hp (List.mem_cons_of_mem _ hm)) h.2
      exact ⟨q, by rw [h.1, h1]; rfl, h2⟩

theorem uEscape_lone {n : Nat} {t rest : Bytes} (h1 : 0xD800 ≤ n) (h2 : n < 0xDC00) (h : ¬ LowNext t) :
    uEscape n (t ++ 34 :: rest) = (0xFFFD, t ++ 34 :: rest) := by
  unfold uEscape
  rw [if_pos ⟨h1, h2⟩]
  split
  · rename_i t' heq
    split
    · rename_i d t'' hx
      split
      · rename_i hd
        exfalso
        obtain ⟨u, e, hu⟩ := hex4_some hx
        obtain ⟨q, e1, _⟩ := before_quote (t := t) (p := 92 :: 117 :: u) (r := t'') (rest := rest) (by
          have := hex4_no_quote hu
          simp only [List.mem_cons, not_or]
          exact ⟨by decide, by decide, this⟩) (by rw [heq, e]; rfl)
        exact h ⟨d, u, q, e1, hu, hd.1, hd.2⟩
      · rfl
    · rfl
  · rfl

theorem uEscape_low {n : Nat} {t : Bytes} (h1 : 0xD800 ≤ n) (h2 : n < 0xDC00) (h : LowNext t) :
    ∃ lo u r, t = 92 :: 117 :: (u ++ r) ∧ Hex4 lo u ∧ 0xDC00 ≤ lo ∧ lo < 0xE000 ∧ uEscape n t = ((n - 0xD800) * 1024 + (lo - 0xDC00) + 0x10000, r) := by
  obtain ⟨lo, u, r, rfl, hu, g1, g2⟩ := h
  refine ⟨lo, u, r, rfl, hu, g1, g2, ?_⟩
  unfold uEscape
  rw [if_pos ⟨h1, h2⟩]
  simp only [hex4_text hu]
  rw [if_pos ⟨g1, g2⟩]

theorem utf8_fffd : utf8 [Char.ofNat 0xFFFD] = [0xEF, 0xBF, 0xBD] := by decide

theorem encodeRune_surrogate {n : Nat} (h1 : 0xD800 ≤ n) (h2 : n < 0xE000) : encodeRune n = [0xEF, 0xBF, 0xBD] := by
  unfold encodeRune
  rw [if_neg (by omega), if_neg (by omega), if_pos (by omega)]

theorem ascii_char {b : UInt8} (h : b.toNat < 128) : utf8 [Char.ofNat b.toNat] = [b] := by
  have hv : b.toNat.isValidChar := by left; omega
  have := encodeRune_char (Char.ofNat b.toNat)
  rw [toNat_ofNat_valid hv] at this
  simp only [utf8, List.flatMap_cons, List.flatMap_nil, List.append_nil]
  rw [← this]
  unfold encodeRune
  rw [if_pos h]
  simp

/-- no byte of a character that is not ASCII is -/
theorem char_high (c : Char) (h : 128 ≤ c.toNat) : ∀ x ∈ utf8 [c], 128 ≤ x.toNat := by
  have hv : c.toNat < 0xD800 ∨ 0xDFFF < c.toNat ∧ c.toNat < 0x110000 := char_valid c
  simp only [utf8, List.flatMap_cons, List.flatMap_nil, List.append_nil]
  rw [← encodeRune_char]
  generalize c.toNat = n at h hv
  intro x hx
  unfold encodeRune at hx
  rw [if_neg (by omega)] at hx
  split at hx
  · simp only [List.mem_cons, List.not_mem_nil, or_false] at hx
    rcases hx with rfl | rfl <;> rw [ofNat_toNat8 (by omega)] <;> omega
  rw [if_neg (by omega)] at hx
  split at hx
  · simp only [List.mem_cons, List.not_mem_nil, or_false] at hx
    rcases hx with rfl | rfl | rfl <;> rw [ofNat_toNat8 (by omega)] <;> omega
  · simp only [List.mem_cons, List.not_mem_nil, or_false] at hx
    rcases hx with rfl | rfl | rfl | rfl <;> rw [ofNat_toNat8 (by omega)] <;> omega

/-- a byte beginning no character before the quote begins none with the quote and what is after it -/
theorem decodeRune_bad {b : UInt8} {p rest : Bytes} (h : ∀ c : Char, ¬ utf8 [c] <+: b :: p) : (decodeRune b (p ++ 34 :: rest)).cp = none := by
  cases hcp : (decodeRune b (p ++ 34 :: rest)).cp with
  | none => rfl
  | some x =>
    exfalso
    obtain ⟨c, hc⟩ := rune_char (b := b) (t := p ++ 34 :: rest) (by rw [hcp]; rfl)
    have hf := decode_flat (b :: (p ++ 34 :: rest))
    rw [decode_cons, List.flatMap_cons, hc] at hf
    have he : (runeOf c).enc = utf8 [c] := by simp [runeOf, utf8]
    rw [he] at hf
    by_cases h1 : c.toNat < 128
    · have : utf8 [c] = [UInt8.ofNat c.toNat] := by
        have := ascii_char (b := UInt8.ofNat c.toNat) (by rw [ofNat_toNat8 (by omega)]; exact h1)
        rw [ofNat_toNat8 (by omega), Char.ofNat_toNat] at this
        exact this
      rw [this] at hf
      simp only [List.cons_append, List.nil_append, List.cons.injEq] at hf
      refine h c ?_
      rw [this, hf.1]
      exact ⟨p, rfl⟩
    · obtain ⟨q, e, _⟩ := before_quote (t := b :: p) (p := utf8 [c]) (rest := rest) (by
        intro hm
        have := char_high c (by omega) _ hm
        revert this; decide) (by rw [hf]; rfl)
      exact h c ⟨q, e.symm⟩

theorem bad_high {b : UInt8} {p : Bytes} (h : ∀ c : Char, ¬ utf8 [c] <+: b :: p) : 128 ≤ b.toNat := by
  rcases Nat.lt_or_ge b.toNat 128 with h1 | h1
  · exact absurd (by rw [ascii_char h1]; exact ⟨p, rfl⟩) (h (Char.ofNat b.toNat))
  · exact h1

theorem lax_read {cs : List Char} {t : Bytes} (h : LaxChars cs t) : ∀ (n : Nat) (rest : Bytes), t.length < n →
    parseStr n (t ++ 34 :: rest) = .ok (utf8 cs, rest) := by
  induction h with
  | nil =>
    intro n rest hn
    obtain ⟨m, rfl⟩ : ∃ m, n = m + 1 := ⟨n - 1, by omega⟩
    rfl
  | @char c cs t t' hc _ ih =>
    intro n rest hn
    have := char_length hc
    rw [List.length_append] at hn
    obtain ⟨m, rfl⟩ : ∃ m, n = m + 1 := ⟨n - 1, by omega⟩
    rw [List.append_assoc, char_step hc, ih m rest (by omega)]
    simp [utf8, bind, Except.bind, pure, Except.pure]
  | @lone x cs t t' hx h1 h2 h3 _ ih =>
    intro n rest hn
    simp only [List.length_cons, List.length_append] at hn
    obtain ⟨m, rfl⟩ : ∃ m, n = m + 1 := ⟨n - 1, by omega⟩
    have key : (uEscape x (t' ++ 34 :: rest)).2 = t' ++ 34 :: rest ∧ encodeRune (uEscape x (t' ++ 34 :: rest)).1 = [0xEF, 0xBF, 0xBD] := by
      by_cases h4 : x < 0xDC00
      · rw [uEscape_lone h1 h4 (fun h => h3 ⟨h4, h⟩)]
        exact ⟨rfl, by show encodeRune 0xFFFD = _; decide⟩
      · rw [uEscape_bmp (by omega)]
        exact ⟨rfl, encodeRune_surrogate h1 h2⟩
    simp only [List.cons_append, List.append_assoc, parseStr]
    rw [if_neg (by decide), if_pos trivial]
    simp only [if_true, hex4_text hx, key.1, key.2]
    rw [ih m rest (by omega), show Char.ofNat 0xFFFD :: cs = [Char.ofNat 0xFFFD] ++ cs from rfl]
    simp only [bind, Except.bind, pure, Except.pure]
    rw [show utf8 ([Char.ofNat 0xFFFD] ++ cs) = utf8 [Char.ofNat 0xFFFD] ++ utf8 cs by simp [utf8], utf8_fffd]
  | @bad b cs p hb _ ih =>
    intro n rest hn
    simp only [List.length_cons] at hn
    obtain ⟨m, rfl⟩ : ∃ m, n = m + 1 := ⟨n - 1, by omega⟩
    have hh := bad_high hb
    have hcp := decodeRune_bad (rest := rest) hb
    have he := decodeRune_none b (p ++ 34 :: rest) hcp
    simp only [List.cons_append, parseStr]
    rw [if_neg (by rintro rfl; revert hh; decide), if_neg (by rintro rfl; revert hh; decide), if_neg (by
      intro h; have h' : b.toNat < 32 := h; omega)]
    rw [he, hcp]
    simp only [List.length_cons, List.length_nil, Nat.zero_add, Nat.sub_self, List.drop_zero]
    rw [ih m rest (by omega), show Char.ofNat 0xFFFD :: cs = [Char.ofNat 0xFFFD] ++ cs from rfl]
    simp only [bind, Except.bind, pure, Except.pure]
    rw [show utf8 ([Char.ofNat 0xFFFD] ++ cs) = utf8 [Char.ofNat 0xFFFD] ++ utf8 cs by simp [utf8], utf8_fffd]
    rfl

theorem lax_str_read {cs : List Char} {t : Bytes} (h : LaxChars cs t) (rest : Bytes) :
    parseStr (t ++ 34 :: rest).length (t ++ 34 :: rest) = .ok (utf8 cs, rest) :=
  lax_read h _ _ (by rw [List.length_append, List.length_cons]; omega)

/-! ## strings: nothing else is -/

theorem utf8_cons (c : Char) (cs : List Char) : utf8 (c :: cs) = utf8 [c] ++ utf8 cs := by simp [utf8]

theorem rune_utf8 {n : Nat} (h : n.isValidChar) : encodeRune n = utf8 [Char.ofNat n] := by
  have := encodeRune_char (Char.ofNat n)
  rw [toNat_ofNat_valid h] at this
  rw [this]; simp [utf8]

theorem parseStr_sound : ∀ (n : Nat) (s v rest : Bytes), parseStr n s = .ok (v, rest) →
    ∃ cs t, s = t ++ 34 :: rest ∧ LaxChars cs t ∧ v = utf8 cs := by
  intro n
  induction n with
  | zero => intro s v rest h; cases h
  | succ n ih =>
    intro s v rest h
    cases s with
    | nil => cases h
    | cons b t =>
      simp only [parseStr] at h
      by_cases h34 : b = 34
      · subst h34
        rw [if_pos rfl] at h
        injection h with h
        injection h with h1 h2
        subst h1 h2
        exact ⟨[], [], rfl, .nil, rfl⟩
      rw [if_neg h34] at h
      by_cases h92 : b = 92
      · subst h92
        rw [if_pos rfl] at h
        cases t with
        | nil => cases h
        | cons e t =>
          simp only at h
          by_cases h117 : e = 117
          · subst h117
            rw [if_pos rfl] at h
            cases hx : hex4 t with
            | none => rw [hx] at h; cases h
            | some z =>
              obtain ⟨c, t2⟩ := z
              rw [hx] at h
              simp only at h
              obtain ⟨u, rfl, hu⟩ := hex4_some hx
              cases hr : parseStr n (uEscape c t2).2 with
              | error f => rw [hr] at h; cases h
              | ok y =>
                obtain ⟨v', rest'⟩ := y
                rw [hr] at h
                simp only [bind, Except.bind, pure, Except.pure, Except.ok.injEq, Prod.mk.injEq] at h
                obtain ⟨hv, rfl⟩ := h
                subst hv
                obtain ⟨cs, t3, e3, hl, rfl⟩ := ih _ _ _ hr
                by_cases hi : 0xD800 ≤ c ∧ c < 0xDC00
                · by_cases hlow : LowNext t2
                  · obtain ⟨lo, u', r, rfl, hu', g1, g2, ge⟩ := uEscape_low hi.1 hi.2 hlow
                    rw [ge] at e3 ⊢
                    simp only at e3 ⊢
                    subst e3
                    have hvc : ((c - 0xD800) * 1024 + (lo - 0xDC00) + 0x10000).isValidChar := by right; omega
                    refine ⟨Char.ofNat ((c - 0xD800) * 1024 + (lo - 0xDC00) + 0x10000) :: cs, (92 :: 117 :: (u ++ 92 :: 117 :: u')) ++ t3, by simp, ?_, ?_⟩
                    · exact .char (.pair hu hu' hi.1 hi.2 g1 g2 (by rw [toNat_ofNat_valid hvc]; omega)) hl
                    · rw [utf8_cons, rune_utf8 hvc]
                  · have hs : uEscape c t2 = (0xFFFD, t2) := by
                      unfold uEscape
                      rw [if_pos hi]
                      split
                      · split
                        · rename_i d t'' hx'
                          split
                          · rename_i hd
                            obtain ⟨u', e', hu'⟩ := hex4_some hx'
                            exact absurd ⟨d, u', t'', by rw [e'], hu', hd.1, hd.2⟩ hlow
                          · rfl
                        · rfl
                      · rfl
                    rw [hs] at e3 ⊢
                    simp only at e3 ⊢
                    subst e3
                    refine ⟨Char.ofNat 0xFFFD :: cs, 92 :: 117 :: (u ++ t3), by simp, .lone hu hi.1 (by omega) ?_ hl, ?_⟩
                    · rintro ⟨_, lo, u', r, rfl, hu', g1, g2⟩
                      exact hlow ⟨lo, u', r ++ 34 :: rest', by simp, hu', g1, g2⟩
                    · rw [utf8_cons, utf8_fffd, show encodeRune 0xFFFD = [0xEF, 0xBF, 0xBD] from by decide]
                · rw [uEscape_bmp hi] at e3 ⊢
                  simp only at e3 ⊢
                  subst e3
                  by_cases hs : 0xD800 ≤ c ∧ c < 0xE000
                  · refine ⟨Char.ofNat 0xFFFD :: cs, 92 :: 117 :: (u ++ t3), by simp, .lone hu hs.1 hs.2 (fun h => hi ⟨hs.1, h.1⟩) hl, ?_⟩
                    rw [utf8_cons, utf8_fffd, encodeRune_surrogate hs.1 hs.2]
                  · have hc16 : c < 0x10000 := by
                      obtain ⟨_, _, _, _, _, p, q, r, s, h1, h2, h3, h4, he⟩ := hu
                      have lt : ∀ {x : UInt8} {k : Nat}, hexOf x = some k → k < 16 := by
                        intro x k hk
                        unfold hexOf at hk
                        split at hk
                        · injection hk with hk; omega
                        split at hk
                        · injection hk with hk; omega
                        split at hk
                        · injection hk with hk; omega
                        · cases hk
                      have := lt h1; have := lt h2; have := lt h3; have := lt h4
                      omega
                    have hvc : c.isValidChar := by
                      rcases Nat.lt_or_ge c 0xD800 with h | h
                      · left; exact h
                      · right; omega
                    refine ⟨Char.ofNat c :: cs, (92 :: 117 :: u) ++ t3, by simp, .char (.code (by rw [toNat_ofNat_valid hvc]; exact hu)) hl, ?_⟩
                    rw [utf8_cons, rune_utf8 hvc]
          · rw [if_neg h117] at h
            have key : ∀ x ch, (ch, e) ∈ shortEscapes → utf8 [ch] = [x] →
                (do let (s, rest) ← parseStr n t; return (x :: s, rest)) = (.ok (v, rest) : M (Bytes × Bytes)) →
                ∃ cs t', 92 :: e :: t = t' ++ 34 :: rest ∧ LaxChars cs t' ∧ v = utf8 cs := by
              intro x ch hm hu h
              cases hr : parseStr n t with
              | error f => rw [hr] at h; cases h
              | ok y =>
                obtain ⟨v', rest'⟩ := y
                rw [hr] at h
                simp only [bind, Except.bind, pure, Except.pure, Except.ok.injEq, Prod.mk.injEq] at h
                obtain ⟨hv, rfl⟩ := h
                subst hv
                obtain ⟨cs, t3, e3, hl, rfl⟩ := ih _ _ _ hr
                subst e3
                exact ⟨ch :: cs, [92, e] ++ t3, by simp, .char (.short hm) hl, by rw [utf8_cons, hu]; rfl⟩
            by_cases e1 : e = 34 ∨ e = 92 ∨ e = 47
            · rw [if_pos e1] at h
              rcases e1 with rfl | rfl | rfl
              · exact key 34 '"' (by decide) (by decide) h
              · exact key 92 '\\' (by decide) (by decide) h
              · exact key 47 '/' (by decide) (by decide) h
            rw [if_neg e1] at h
            by_cases e2 : e = 98
            · subst e2; rw [if_pos rfl] at h; exact key 8 (Char.ofNat 8) (by decide) (by decide) h
            rw [if_neg e2] at h
            by_cases e3 : e = 102
            · subst e3; rw [if_pos rfl] at h; exact key 12 (Char.ofNat 12) (by decide) (by decide) h
            rw [if_neg e3] at h
            by_cases e4 : e = 110
            · subst e4; rw [if_pos rfl] at h; exact key 10 '\n' (by decide) (by decide) h
            rw [if_neg e4] at h
            by_cases e5 : e = 114
            · subst e5; rw [if_pos rfl] at h; exact key 13 '\r' (by decide) (by decide) h
            rw [if_neg e5] at h
            by_cases e6 : e = 116
            · subst e6; rw [if_pos rfl] at h; exact key 9 '\t' (by decide) (by decide) h
            rw [if_neg e6] at h
            cases h
      rw [if_neg h92] at h
      by_cases h32 : b < 32
      · rw [if_pos h32] at h; cases h
      rw [if_neg h32] at h
      have h32' : 32 ≤ b.toNat := Nat.le_of_not_lt h32
      cases hr : parseStr n (t.drop ((decodeRune b t).enc.length - 1)) with
      | error f => rw [hr] at h; cases h
      | ok y =>
        obtain ⟨v', rest'⟩ := y
        rw [hr] at h
        simp only [bind, Except.bind, pure, Except.pure, Except.ok.injEq, Prod.mk.injEq] at h
        obtain ⟨hv, rfl⟩ := h
        subst hv
        obtain ⟨cs, t3, e3, hl, rfl⟩ := ih _ _ _ hr
        cases hcp : (decodeRune b t).cp with
        | none =>
          have he := decodeRune_none b t hcp
          rw [he] at e3
          simp only [List.length_cons, List.length_nil, Nat.zero_add, Nat.sub_self, List.drop_zero] at e3
          subst e3
          refine ⟨Char.ofNat 0xFFFD :: cs, b :: t3, rfl, .bad ?_ hl, ?_⟩
          · rintro c ⟨r, hr⟩
            obtain ⟨b', t', e1, e2⟩ := decodeRune_char c (r ++ 34 :: rest')
            simp only [utf8, List.flatMap_cons, List.flatMap_nil, List.append_nil, e1, List.cons_append, List.cons.injEq] at hr
            rw [hr.1, ← List.append_assoc, hr.2] at e2
            rw [e2] at hcp
            cases hcp
          · rw [utf8_cons, utf8_fffd]; rfl
        | some x =>
          obtain ⟨c, hc⟩ := rune_char (b := b) (t := t) (by rw [hcp]; rfl)
          have hf := decode_flat (b :: t)
          rw [decode_cons, List.flatMap_cons, decode_flat, e3] at hf
          have he : (decodeRune b t).enc = utf8 [c] := by rw [hc]; simp [runeOf, utf8]
          rw [he] at hf
          have hfirst := decodeRune_first b t c.toNat (by rw [hc]; rfl)
          refine ⟨c :: cs, utf8 [c] ++ t3, by rw [← hf]; simp, .char (.plain ?_ ?_ ?_) hl, ?_⟩
          · rcases hfirst with ⟨_, g⟩ | ⟨_, g⟩ <;> omega
          · rintro rfl
            rcases hfirst with ⟨_, g⟩ | ⟨_, g⟩
            · exact h34 (UInt8.toNat_inj.mp g.symm)
            · revert g; decide
          · rintro rfl
            rcases hfirst with ⟨_, g⟩ | ⟨_, g⟩
            · exact h92 (UInt8.toNat_inj.mp g.symm)
            · revert g; decide
          · rw [utf8_cons, he]; rfl

/-! ## numbers -/

theorem takeWhile_dropWhile (t : Bytes) : t = t.takeWhile isDig ++ t.dropWhile isDig := List.takeWhile_append_dropWhile.symm

theorem mem_takeWhile_dig {t : Bytes} {b : UInt8} (h : b ∈ t.takeWhile isDig) : 48 ≤ b.toNat ∧ b.toNat ≤ 57 := by
  have : isDig b = true := by
    induction t with
    | nil => cases h
    | cons x t ih =>
      rw [List.takeWhile_cons] at h
      cases hx : isDig x
      · rw [hx] at h; simp at h
      · rw [hx] at h
        simp only [if_true, List.mem_cons] at h
        rcases h with rfl | h
        · exact hx
        · exact ih h
  exact (isDig_iff b).1 this

theorem parseDigits_sound {s d r : Bytes} (h : parseDigits s = .ok (d, r)) : s = d ++ r ∧ IsDigits d := by
  unfold parseDigits at h
  split at h
  · cases h
  · rename_i hne
    simp only [Except.ok.injEq, Prod.mk.injEq] at h
    obtain ⟨rfl, rfl⟩ := h
    exact ⟨takeWhile_dropWhile s, hne, fun b hb => mem_takeWhile_dig hb⟩

theorem parseIntPart_sound {s d r : Bytes} (h : parseIntPart s = .ok (d, r)) : s = d ++ r ∧ IsDigits d ∧ (d.head? = some 48 → d = [48]) := by
  unfold parseIntPart at h
  cases s with
  | nil => cases h
  | cons b t =>
    simp only at h
    split at h
    · rename_i hb
      simp only [Except.ok.injEq, Prod.mk.injEq] at h
      obtain ⟨rfl, rfl⟩ := h
      subst hb
      exact ⟨rfl, ⟨by simp, by simp⟩, fun _ => rfl⟩
    · rename_i hb
      split at h
      · rename_i hd
        simp only [Except.ok.injEq, Prod.mk.injEq] at h
        obtain ⟨rfl, rfl⟩ := h
        refine ⟨by rw [List.cons_append, ← takeWhile_dropWhile], ⟨by simp, fun x hx => ?_⟩, fun h => ?_⟩
        · rcases List.mem_cons.1 hx with rfl | hx
          · exact (isDig_iff _).1 hd
          · exact mem_takeWhile_dig hx
        · simp only [List.head?_cons, Option.some.injEq] at h
          exact absurd h hb
      · cases h

theorem parseFrac_sound {s d r : Bytes} (h : parseFrac s = .ok (d, r)) : s = d ++ r ∧ (d = [] ∨ ∃ x, d = 46 :: x ∧ IsDigits x) := by
  unfold parseFrac at h
  split at h
  · rename_i t
    cases hd : parseDigits t with
    | error f => rw [hd] at h; cases h
    | ok y =>
      obtain ⟨x, r'⟩ := y
      rw [hd] at h
      simp only [bind, Except.bind, pure, Except.pure, Except.ok.injEq, Prod.mk.injEq] at h
      obtain ⟨rfl, rfl⟩ := h
      obtain ⟨h1, h2⟩ := parseDigits_sound hd
      exact ⟨by rw [h1]; rfl, Or.inr ⟨x, rfl, h2⟩⟩
  · simp only [Except.ok.injEq, Prod.mk.injEq] at h
    obtain ⟨rfl, rfl⟩ := h
    exact ⟨rfl, Or.inl rfl⟩

theorem parseExp_sound {s d r : Bytes} (h : parseExp s = .ok (d, r)) : s = d ++ r ∧
    (d = [] ∨ ∃ x g y, d = x :: (g ++ y) ∧ (x = 101 ∨ x = 69) ∧ (g = [] ∨ g = [43] ∨ g = [45]) ∧ IsDigits y) := by
  unfold parseExp at h
  cases s with
  | nil =>
    simp only [Except.ok.injEq, Prod.mk.injEq] at h
    obtain ⟨rfl, rfl⟩ := h
    exact ⟨rfl, Or.inl rfl⟩
  | cons e t =>
    simp only at h
    by_cases he : e = 69 ∨ e = 101
    · rw [if_pos he] at h
      cases t with
      | nil => cases h
      | cons g t' =>
        simp only at h
        by_cases hg : g = 43 ∨ g = 45
        · rw [if_pos hg] at h
          cases hd : parseDigits t' with
          | error f => rw [hd] at h; cases h
          | ok y =>
            obtain ⟨x, r'⟩ := y
            rw [hd] at h
            simp only [bind, Except.bind, pure, Except.pure, Except.ok.injEq, Prod.mk.injEq] at h
            obtain ⟨rfl, rfl⟩ := h
            obtain ⟨h1, h2⟩ := parseDigits_sound hd
            exact ⟨by rw [h1]; rfl, Or.inr ⟨e, [g], x, rfl, he.symm, by rcases hg with rfl | rfl <;> simp, h2⟩⟩
        · rw [if_neg hg] at h
          cases hd : parseDigits (g :: t') with
          | error f => rw [hd] at h; cases h
          | ok y =>
            obtain ⟨x, r'⟩ := y
            rw [hd] at h
            simp only [bind, Except.bind, pure, Except.pure, Except.ok.injEq, Prod.mk.injEq] at h
            obtain ⟨rfl, rfl⟩ := h
            obtain ⟨h1, h2⟩ := parseDigits_sound hd
            exact ⟨by rw [h1]; rfl, Or.inr ⟨e, [], x, rfl, he.symm, Or.inl rfl, h2⟩⟩
    · rw [if_neg he] at h
      simp only [Except.ok.injEq, Prod.mk.injEq] at h
      obtain ⟨rfl, rfl⟩ := h
      exact ⟨rfl, Or.inl rfl⟩

theorem parseSign_sound (s : Bytes) : s = (parseSign s).1 ++ (parseSign s).2 ∧ ((parseSign s).1 = [] ∨ (parseSign s).1 = [45]) := by
  unfold parseSign
  cases s with
  | nil => exact ⟨rfl, Or.inl rfl⟩
  | cons b t =>
    simp only
    split
    · rename_i h; subst h; exact ⟨rfl, Or.inr rfl⟩
    · exact ⟨rfl, Or.inl rfl⟩

theorem parseNum_sound {s r : Bytes} {v : Value} (h : parseNum s = .ok (v, r)) : ∃ t, s = t ++ r ∧ JNumber t ∧ v = .num t := by
  unfold parseNum at h
  obtain ⟨e1, h1⟩ := parseSign_sound s
  simp only [bind, Except.bind] at h
  cases ha : parseIntPart (parseSign s).2 with
  | error f => rw [ha] at h; cases h
  | ok y =>
  obtain ⟨a, s1⟩ := y
  rw [ha] at h
  simp only at h
  cases hb : parseFrac s1 with
  | error f => rw [hb] at h; cases h
  | ok y =>
  obtain ⟨b, s2⟩ := y
  rw [hb] at h
  simp only at h
  cases hc : parseExp s2 with
  | error f => rw [hc] at h; cases h
  | ok y =>
  obtain ⟨c, s3⟩ := y
  rw [hc] at h
  simp only [pure, Except.pure, Except.ok.injEq, Prod.mk.injEq] at h
  obtain ⟨rfl, rfl⟩ := h
  obtain ⟨a1, a2, a3⟩ := parseIntPart_sound ha
  obtain ⟨b1, b2⟩ := parseFrac_sound hb
  obtain ⟨c1, c2⟩ := parseExp_sound hc
  refine ⟨(parseSign s).1 ++ a ++ b ++ c, ?_, ⟨(parseSign s).1, a, b, c, by simp, h1, a2, a3, b2, c2⟩, rfl⟩
  conv => lhs; rw [e1, a1, b1, c1]
  simp

/-! ## values -/

theorem skipWs_split (s : Bytes) : ∃ w, Blank w ∧ s = w ++ skipWs s := by
  refine ⟨s.takeWhile isWs, ?_, List.takeWhile_append_dropWhile.symm⟩
  intro b hb
  have : isWs b = true := by
    induction s with
    | nil => cases hb
    | cons x t ih =>
      rw [List.takeWhile_cons] at hb
      cases hx : isWs x
      · rw [hx] at hb; simp at hb
      · rw [hx] at hb
        simp only [if_true, List.mem_cons] at hb
        rcases hb with rfl | hb
        · exact hx
        · exact ih hb
  simp only [isWs, Bool.or_eq_true, decide_eq_true_eq] at this
  rcases this with ((h | h) | h) | h
  · exact Or.inl h
  · exact Or.inr (Or.inl h)
  · exact Or.inr (Or.inr (Or.inl h))
  · exact Or.inr (Or.inr (Or.inr h))

/-- what a reader of values reads is of the grammar, and nested less than `d` deep -/
def Sound (d : Nat) (pv : Bytes → M (Value × Bytes)) : Prop :=
  ∀ s v r, pv s = .ok (v, r) → ∃ v' t, s = t ++ r ∧ JTextOf LaxChars v' t ∧ v = conv v' ∧ depth v' < d

theorem parseElems_sound {d : Nat} {pv : Bytes → M (Value × Bytes)} (hp : Sound d pv) : ∀ (n : Nat) (s : Bytes) (vs : List Value) (r : Bytes),
    parseElems pv n s = .ok (vs, r) → ∀ w, Blank w → ∃ vs' t, w ++ s = t ++ 93 :: r ∧ JElemsOf LaxChars vs' t ∧ vs = convs vs' ∧ depths vs' < d := by
  intro n
  induction n with
  | zero => intro s vs r h; cases h
  | succ n ih =>
    intro s vs r h w hw
    simp only [parseElems, bind, Except.bind] at h
    cases hv : pv s with
    | error f => rw [hv] at h; cases h
    | ok y =>
      obtain ⟨v, t⟩ := y
      rw [hv] at h
      simp only at h
      obtain ⟨v', tv, rfl, g1, rfl, g2⟩ := hp _ _ _ hv
      obtain ⟨w', hw', e⟩ := skipWs_split t
      split at h
      · rename_i t2 heq
        rw [heq] at e
        cases hr : parseElems pv n (skipWs t2) with
        | error f => rw [hr] at h; cases h
        | ok y =>
          obtain ⟨vs1, r1⟩ := y
          rw [hr] at h
          simp only [pure, Except.pure, Except.ok.injEq, Prod.mk.injEq] at h
          obtain ⟨rfl, rfl⟩ := h
          obtain ⟨w2, hw2, e2⟩ := skipWs_split t2
          obtain ⟨vs', t', e3, g3, rfl, g4⟩ := ih _ _ _ hr w2 hw2
          rw [← e2] at e3
          refine ⟨v' :: vs', w ++ (tv ++ (w' ++ 44 :: t')), ?_, .cons hw g1 hw' g3, rfl, ?_⟩
          · rw [e, e3]; simp
          · rw [depths]; omega
      · rename_i t2 heq
        rw [heq] at e
        simp only [pure, Except.pure, Except.ok.injEq, Prod.mk.injEq] at h
        obtain ⟨rfl, rfl⟩ := h
        refine ⟨[v'], w ++ (tv ++ w'), by rw [e]; simp, .one hw g1 hw', rfl, ?_⟩
        rw [depths, depths]; omega
      · cases h

theorem parseMembers_sound {d : Nat} {pv : Bytes → M (Value × Bytes)} (hp : Sound d pv) : ∀ (n : Nat) (s : Bytes) (ms : List (Bytes × Value)) (r : Bytes),
    parseMembers pv n s = .ok (ms, r) → ∀ w, Blank w → ∃ ms' t, w ++ s = t ++ 125 :: r ∧ JMembersOf LaxChars ms' t ∧ ms = convm ms' ∧ depthm ms' < d := by
  intro n
  induction n with
  | zero => intro s vs r h; cases h
  | succ n ih =>
    intro s ms r h w hw
    simp only [parseMembers] at h
    split at h
    · rename_i t0
      cases hk : parseStr t0.length t0 with
      | error f => rw [hk] at h; cases h
      | ok y =>
      obtain ⟨k, t1⟩ := y
      rw [hk] at h
      simp only [bind, Except.bind] at h
      obtain ⟨ks, tk, rfl, gk, rfl⟩ := parseStr_sound _ _ _ _ hk
      obtain ⟨w1, hw1, e1⟩ := skipWs_split t1
      split at h
      · rename_i t2 heq
        rw [heq] at e1
        obtain ⟨w2, hw2, e2⟩ := skipWs_split t2
        cases hv : pv (skipWs t2) with
        | error f => rw [hv] at h; cases h
        | ok y =>
        obtain ⟨v, t3⟩ := y
        rw [hv] at h
        simp only at h
        obtain ⟨v', tv, e3, g1, rfl, g2⟩ := hp _ _ _ hv
        rw [e3] at e2
        obtain ⟨w3, hw3, e4⟩ := skipWs_split t3
        have hks : JTextOf LaxChars (.str ks) (34 :: (tk ++ [34])) := .str gk
        split at h
        · rename_i t4 heq4
          rw [heq4] at e4
          cases hr : parseMembers pv n (skipWs t4) with
          | error f => rw [hr] at h; cases h
          | ok y =>
          obtain ⟨ms1, r1⟩ := y
          rw [hr] at h
          simp only [pure, Except.pure, Except.ok.injEq, Prod.mk.injEq] at h
          obtain ⟨rfl, rfl⟩ := h
          obtain ⟨w4, hw4, e5⟩ := skipWs_split t4
          obtain ⟨ms', t', e6, g3, rfl, g4⟩ := ih _ _ _ hr w4 hw4
          rw [← e5] at e6
          refine ⟨(ks, v') :: ms', _, ?_, .cons hw hks hw1 hw2 g1 hw3 g3, rfl, ?_⟩
          · rw [e1, e2, e4, e6]; simp
          · rw [depthm]; omega
        · rename_i t4 heq4
          rw [heq4] at e4
          simp only [pure, Except.pure, Except.ok.injEq, Prod.mk.injEq] at h
          obtain ⟨rfl, rfl⟩ := h
          refine ⟨[(ks, v')], _, ?_, .one hw hks hw1 hw2 g1 hw3, rfl, ?_⟩
          · rw [e1, e2, e4]; simp
          · rw [depthm, depthm]; omega
        · cases h
      · cases h
    · cases h

theorem take_eq {t p : Bytes} {n : Nat} (h : t.take n = p) : t = p ++ t.drop n := by rw [← h, List.take_append_drop]

theorem parseValue_sound : ∀ d, Sound d (parseValue d) := by
  intro d
  induction d with
  | zero => intro s v r h; cases h
  | succ d ih =>
    intro s v r h
    cases s with
    | nil => cases h
    | cons b t =>
      simp only [parseValue] at h
      by_cases h1 : b = 123
      · subst h1
        rw [if_pos rfl] at h
        by_cases hd : d = 0
        · rw [if_pos hd] at h; cases h
        rw [if_neg hd] at h
        obtain ⟨w, hw, e⟩ := skipWs_split t
        split at h
        · rename_i t2 heq
          rw [heq] at e
          simp only [Except.ok.injEq, Prod.mk.injEq] at h
          obtain ⟨rfl, rfl⟩ := h
          exact ⟨.obj [], _, by rw [e]; simp, .obj0 hw, rfl, by simp only [depth, depthm]; omega⟩
        · cases hm : parseMembers (parseValue d) (skipWs t).length (skipWs t) with
          | error f => rw [hm] at h; cases h
          | ok y =>
            obtain ⟨ms, t2⟩ := y
            rw [hm] at h
            simp only [bind, Except.bind, pure, Except.pure, Except.ok.injEq, Prod.mk.injEq] at h
            obtain ⟨rfl, rfl⟩ := h
            obtain ⟨ms', t', e3, g3, rfl, g4⟩ := parseMembers_sound ih _ _ _ _ hm w hw
            rw [← e] at e3
            exact ⟨.obj ms', _, by rw [e3]; simp, .obj g3, rfl, by rw [depth]; omega⟩
      rw [if_neg h1] at h
      by_cases h2 : b = 91
      · subst h2
        rw [if_pos rfl] at h
        by_cases hd : d = 0
        · rw [if_pos hd] at h; cases h
        rw [if_neg hd] at h
        obtain ⟨w, hw, e⟩ := skipWs_split t
        split at h
        · rename_i t2 heq
          rw [heq] at e
          simp only [Except.ok.injEq, Prod.mk.injEq] at h
          obtain ⟨rfl, rfl⟩ := h
          exact ⟨.arr [], _, by rw [e]; simp, .arr0 hw, rfl, by simp only [depth, depths]; omega⟩
        · cases hm : parseElems (parseValue d) (skipWs t).length (skipWs t) with
          | error f => rw [hm] at h; cases h
          | ok y =>
            obtain ⟨ms, t2⟩ := y
            rw [hm] at h
            simp only [bind, Except.bind, pure, Except.pure, Except.ok.injEq, Prod.mk.injEq] at h
            obtain ⟨rfl, rfl⟩ := h
            obtain ⟨ms', t', e3, g3, rfl, g4⟩ := parseElems_sound ih _ _ _ _ hm w hw
            rw [← e] at e3
            exact ⟨.arr ms', _, by rw [e3]; simp, .arr g3, rfl, by rw [depth]; omega⟩
      rw [if_neg h2] at h
      by_cases h3 : b = 34
      · subst h3
        rw [if_pos rfl] at h
        cases hm : parseStr t.length t with
        | error f => rw [hm] at h; cases h
        | ok y =>
          obtain ⟨ms, t2⟩ := y
          rw [hm] at h
          simp only [bind, Except.bind, pure, Except.pure, Except.ok.injEq, Prod.mk.injEq] at h
          obtain ⟨rfl, rfl⟩ := h
          obtain ⟨cs, t', e3, g3, rfl⟩ := parseStr_sound _ _ _ _ hm
          exact ⟨.str cs, _, by rw [e3]; simp, .str g3, rfl, by simp only [depth]; omega⟩
      rw [if_neg h3] at h
      by_cases h4 : b = 116
      · subst h4
        rw [if_pos rfl] at h
        split at h
        · rename_i ht
          simp only [Except.ok.injEq, Prod.mk.injEq] at h
          obtain ⟨rfl, rfl⟩ := h
          exact ⟨.bool true, [116, 114, 117, 101], by conv => lhs; rw [take_eq ht]
                                                      rfl, .true, rfl, by simp only [depth]; omega⟩
        · cases h
      rw [if_neg h4] at h
      by_cases h5 : b = 102
      · subst h5
        rw [if_pos rfl] at h
        split at h
        · rename_i ht
          simp only [Except.ok.injEq, Prod.mk.injEq] at h
          obtain ⟨rfl, rfl⟩ := h
          exact ⟨.bool false, [102, 97, 108, 115, 101], by conv => lhs; rw [take_eq ht]
                                                           rfl, .false, rfl, by simp only [depth]; omega⟩
        · cases h
      rw [if_neg h5] at h
      by_cases h6 : b = 110
      · subst h6
        rw [if_pos rfl] at h
        split at h
        · rename_i ht
          simp only [Except.ok.injEq, Prod.mk.injEq] at h
          obtain ⟨rfl, rfl⟩ := h
          exact ⟨.null, [110, 117, 108, 108], by conv => lhs; rw [take_eq ht]
                                                 rfl, .null, rfl, by simp only [depth]; omega⟩
        · cases h
      rw [if_neg h6] at h
      obtain ⟨t', e, g, rfl⟩ := parseNum_sound h
      exact ⟨.num t', t', e, .num g, rfl, by simp only [depth]; omega⟩

/-- The texts that are read, exactly. -/
theorem parse_exact (s : Bytes) (v : Value) : parse s = .ok v ↔ ∃ v', IsJsonOf LaxChars v' s ∧ depth v' ≤ 10000 ∧ v = conv v' := by
  constructor
  · intro h
    unfold parse at h
    cases hv : parseValue 10001 (skipWs s) with
    | error f => rw [hv] at h; cases h
    | ok y =>
      obtain ⟨v1, t⟩ := y
      rw [hv] at h
      simp only [bind, Except.bind] at h
      split at h
      · rename_i ht
        simp only [pure, Except.pure, Except.ok.injEq] at h
        subst h
        obtain ⟨v', t', e, g1, rfl, g2⟩ := parseValue_sound 10001 _ _ _ hv
        obtain ⟨w, hw, e1⟩ := skipWs_split s
        obtain ⟨w', hw', e2⟩ := skipWs_split t
        rw [ht, List.append_nil] at e2
        subst e2
        exact ⟨v', ⟨w, t', t, by rw [← e]; exact e1, hw, g1, hw'⟩, by omega, rfl⟩
      · cases h
  · rintro ⟨v', h1, h2, rfl⟩
    exact parse_text_of lax_str_read h1 h2

end Dupi.Json
