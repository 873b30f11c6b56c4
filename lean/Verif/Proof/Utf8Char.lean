import Verif.Spec.Text
import Verif.Proof.Json
import Verif.Proof.Lower
/-! The model's decoder and `bytes.ToLower` agree with Lean's characters. -/

namespace Dupi
open Dupi.Spec

theorem char_valid (c : Char) : c.toNat.isValidChar := c.valid

theorem text_utf8 (cs : List Char) : text (utf8 cs) = some cs := by
  have h := List.utf8Decode?_utf8Encode (l := cs)
  unfold List.utf8Encode at h
  rw [text, utf8, h]; simp

theorem text_some {dat : Bytes} {cs : List Char} (h : text dat = some cs) : dat = utf8 cs := by
  unfold text at h
  obtain ⟨a, h1, h2⟩ := Option.map_eq_some_iff.mp h
  have h3 := ByteArray.utf8Encode_get_utf8Decode? (b := dat.toByteArray) (h := by rw [h1]; rfl)
  simp only [h1, Option.get_some, h2] at h3
  exact (List.toByteArray_inj.mp h3).symm

theorem text_iff (dat : Bytes) (cs : List Char) : text dat = some cs ↔ dat = utf8 cs :=
  ⟨text_some, fun h => h ▸ text_utf8 cs⟩

theorem utf8_inj {cs cs' : List Char} (h : utf8 cs = utf8 cs') : cs = cs' := by
  have := text_utf8 cs
  rw [h, text_utf8] at this
  injection this with this; exact this.symm

/-- the step of decoding that reads a character -/
def runeOf (c : Char) : Rune := ⟨some c.toNat, String.utf8EncodeChar c⟩

theorem encodeRune_branches (n : Nat) (hv : n < 0xD800 ∨ 0xDFFF < n ∧ n < 0x110000) :
    encodeRune n = if n ≤ 127 then [UInt8.ofNat n]
      else if n ≤ 2047 then [UInt8.ofNat (n / 64 % 32 + 192), UInt8.ofNat (n % 64 + 128)]
      else if n ≤ 65535 then [UInt8.ofNat (n / 4096 % 16 + 224), UInt8.ofNat (n / 64 % 64 + 128), UInt8.ofNat (n % 64 + 128)]
      else [UInt8.ofNat (n / 262144 % 8 + 240), UInt8.ofNat (n / 4096 % 64 + 128), UInt8.ofNat (n / 64 % 64 + 128), UInt8.ofNat (n % 64 + 128)] := by
  unfold encodeRune
  by_cases h1 : n < 0x80
  · rw [if_pos h1, if_pos (show n ≤ 127 by omega)]
  rw [if_neg h1, if_neg (show ¬ n ≤ 127 by omega)]
  by_cases h2 : n < 0x800
  · rw [if_pos h2, if_pos (show n ≤ 2047 by omega), Nat.mod_eq_of_lt (by omega : n / 64 < 32), Nat.add_comm 192, Nat.add_comm 128]
  rw [if_neg h2, if_neg (show ¬ (0xD800 ≤ n ∧ n ≤ 0xDFFF ∨ 0x10FFFF < n) by omega), if_neg (show ¬ n ≤ 2047 by omega)]
  by_cases h3 : n < 0x10000
  · rw [if_pos h3, if_pos (show n ≤ 65535 by omega), Nat.mod_eq_of_lt (by omega : n / 4096 < 16)]
    simp only [Nat.add_comm]
  · rw [if_neg h3, if_neg (show ¬ n ≤ 65535 by omega), Nat.mod_eq_of_lt (by omega : n / 262144 < 8)]
    simp only [Nat.add_comm]

theorem encodeRune_char (c : Char) : encodeRune c.toNat = String.utf8EncodeChar c :=
  encodeRune_branches c.toNat (char_valid c)

/-- what decoding finds is a scalar value -/
theorem decodeRune_scalar (b : UInt8) (t : Bytes) (c : Nat) (h : (decodeRune b t).cp = some c) : c.isValidChar := by
  have he := Json.encodeRune_decodeRune b t c h
  have hp := decodeRune_enc b t
  revert h
  unfold decodeRune at *
  have lt8 : ∀ x : UInt8, x.toNat < 256 := fun x => x.toNat_lt
  by_cases h1 : b < 0x80
  · rw [if_pos h1]
    intro h; injection h with h; subst h
    have h1' : b.toNat < 128 := h1
    left; omega
  · rw [if_neg h1]
    cases t with
    | nil => intro h; cases h
    | cons b1 t =>
      dsimp only
      by_cases h2 : is2 b b1 = true
      · rw [if_pos h2]; intro h; injection h with h; subst h; left; unfold cp2; omega
      · rw [if_neg h2]
        cases t with
        | nil => intro h; cases h
        | cons b2 t =>
          dsimp only
          by_cases h3 : (is3 b b1 && isCont b2) = true
          · rw [if_pos h3]
            intro h; injection h with h; subst h
            simp only [Bool.and_eq_true] at h3
            obtain ⟨h3, -⟩ := h3
            have l1 := lt8 b1; have l0 := lt8 b
            unfold is3 at h3
            by_cases e0 : b = 0xE0
            · subst e0; left; unfold cp3; simp; omega
            · rw [if_neg e0] at h3
              have n0 : b.toNat ≠ 224 := fun e => e0 (UInt8.toNat_inj.mp e)
              by_cases e1 : b = 0xED
              · rw [if_pos e1] at h3
                simp only [Bool.and_eq_true, decide_eq_true_eq, UInt8.le_iff_toNat_le, UInt8.reduceToNat] at h3
                subst e1; left; unfold cp3; simp; omega
              · rw [if_neg e1] at h3
                have n1 : b.toNat ≠ 237 := fun e => e1 (UInt8.toNat_inj.mp e)
                simp only [Bool.and_eq_true, decide_eq_true_eq, UInt8.le_iff_toNat_le, UInt8.reduceToNat] at h3
                by_cases h5 : b.toNat < 237
                · left; unfold cp3; omega
                · right; unfold cp3; omega
          · rw [if_neg h3]
            cases t with
            | nil => intro h; cases h
            | cons b3 t =>
              dsimp only
              by_cases h4 : (is4 b b1 && isCont b2 && isCont b3) = true
              · rw [if_pos h4]
                intro h; injection h with h; subst h
                simp only [Bool.and_eq_true] at h4
                obtain ⟨⟨h4, -⟩, -⟩ := h4
                unfold is4 at h4
                have l1 := lt8 b1; have l0 := lt8 b
                by_cases e0 : b = 0xF0
                · rw [if_pos e0] at h4
                  simp only [Bool.and_eq_true, decide_eq_true_eq, UInt8.le_iff_toNat_le, UInt8.reduceToNat] at h4
                  subst e0; right; unfold cp4; simp; omega
                · rw [if_neg e0] at h4
                  by_cases e1 : b = 0xF4
                  · rw [if_pos e1] at h4
                    simp only [Bool.and_eq_true, decide_eq_true_eq, UInt8.le_iff_toNat_le, UInt8.reduceToNat] at h4
                    subst e1; right; unfold cp4; simp; omega
                  · rw [if_neg e1] at h4
                    simp only [Bool.and_eq_true, decide_eq_true_eq, UInt8.le_iff_toNat_le, UInt8.reduceToNat] at h4
                    right; unfold cp4; omega
              · rw [if_neg h4]; intro h; cases h

theorem toNat_ofNat_valid {n : Nat} (h : n.isValidChar) : (Char.ofNat n).toNat = n := by
  unfold Char.ofNat; rw [dif_pos h]; rfl

theorem rune_char {b : UInt8} {t : Bytes} (h : (decodeRune b t).cp.isSome) : ∃ c, decodeRune b t = runeOf c := by
  obtain ⟨n, hn⟩ := Option.isSome_iff_exists.mp h
  have hv := decodeRune_scalar b t n hn
  refine ⟨Char.ofNat n, ?_⟩
  have he := Json.encodeRune_decodeRune b t n hn
  have h1 := encodeRune_char (Char.ofNat n)
  rw [toNat_ofNat_valid hv] at h1
  rw [runeOf, ← h1, toNat_ofNat_valid hv, he, ← hn]

theorem utf8Valid_chars {dat : Bytes} (h : utf8Valid dat = true) : ∃ cs : List Char, decode dat = cs.map runeOf := by
  rw [utf8Valid_iff] at h
  have hr := Json.decode_isRune dat
  generalize decode dat = rs at h hr
  induction rs with
  | nil => exact ⟨[], rfl⟩
  | cons r rs ih =>
    obtain ⟨b, t, rfl⟩ := hr r (by simp)
    obtain ⟨c, hc⟩ := rune_char (h (decodeRune b t) (by simp))
    obtain ⟨cs, hcs⟩ := ih (fun x hx => h x (by simp [hx])) (fun x hx => hr x (by simp [hx]))
    exact ⟨c :: cs, by rw [hc, hcs, List.map_cons]⟩

theorem flat_runeOf (cs : List Char) : (cs.map runeOf).flatMap Rune.enc = utf8 cs := by
  rw [List.flatMap_map]; rfl

theorem utf8Valid_text {dat : Bytes} (h : utf8Valid dat = true) : ∃ cs, text dat = some cs ∧ decode dat = cs.map runeOf := by
  obtain ⟨cs, hcs⟩ := utf8Valid_chars h
  refine ⟨cs, ?_, hcs⟩
  rw [text_iff, ← flat_runeOf, ← hcs, decode_flat]

theorem utf8EncodeChar_ne_nil (c : Char) : String.utf8EncodeChar c ≠ [] := by
  rw [← encodeRune_char]; unfold encodeRune
  repeat' split
  all_goals simp

theorem ofNat_toNat8 {n : Nat} (h : n < 256) : (UInt8.ofNat n).toNat = n := by
  rw [UInt8.toNat_ofNat']; omega

theorem lowerByte_eq : lowerByte = asciiLower := by
  funext b
  apply UInt8.toNat_inj.mp
  rw [lowerByte_toNat, asciiLower]
  split
  · rw [ofNat_toNat8 (by omega)]
  · rfl

theorem decodeRune_char (c : Char) (rest : Bytes) :
    ∃ b t, String.utf8EncodeChar c = b :: t ∧ decodeRune b (t ++ rest) = runeOf c := by
  have hv' : c.toNat < 0xD800 ∨ 0xDFFF < c.toNat ∧ c.toNat < 0x110000 := char_valid c
  unfold runeOf
  rw [← encodeRune_char]
  generalize c.toNat = n at hv'
  unfold encodeRune
  by_cases h1 : n < 0x80
  · rw [if_pos h1]
    refine ⟨_, [], rfl, ?_⟩
    unfold decodeRune
    rw [if_pos (by rw [UInt8.lt_iff_toNat_lt, ofNat_toNat8 (by omega)]; exact h1), ofNat_toNat8 (by omega)]
  rw [if_neg h1]
  by_cases h2 : n < 0x800
  · rw [if_pos h2]
    refine ⟨_, _, rfl, ?_⟩
    have e0 : (UInt8.ofNat (0xC0 + n / 64)).toNat = 0xC0 + n / 64 := ofNat_toNat8 (by omega)
    have e1 : (UInt8.ofNat (0x80 + n % 64)).toNat = 0x80 + n % 64 := ofNat_toNat8 (by omega)
    generalize UInt8.ofNat (0xC0 + n / 64) = b0 at e0 ⊢
    generalize UInt8.ofNat (0x80 + n % 64) = b1 at e1 ⊢
    unfold decodeRune
    rw [if_neg (by rw [UInt8.lt_iff_toNat_lt, e0]; simp only [UInt8.reduceToNat]; omega)]
    simp only [List.cons_append, List.nil_append]
    rw [if_pos]
    · unfold cp2; rw [e0, e1]; congr 2; omega
    · simp only [is2, isCont, Bool.and_eq_true, decide_eq_true_eq, UInt8.le_iff_toNat_le, e0, e1, UInt8.reduceToNat]; omega
  rw [if_neg h2, if_neg (by omega)]
  by_cases h3 : n < 0x10000
  · rw [if_pos h3]
    refine ⟨_, _, rfl, ?_⟩
    have e0 : (UInt8.ofNat (0xE0 + n / 4096)).toNat = 0xE0 + n / 4096 := ofNat_toNat8 (by omega)
    have e1 : (UInt8.ofNat (0x80 + n / 64 % 64)).toNat = 0x80 + n / 64 % 64 := ofNat_toNat8 (by omega)
    have e2 : (UInt8.ofNat (0x80 + n % 64)).toNat = 0x80 + n % 64 := ofNat_toNat8 (by omega)
    generalize UInt8.ofNat (0xE0 + n / 4096) = b0 at e0 ⊢
    generalize UInt8.ofNat (0x80 + n / 64 % 64) = b1 at e1 ⊢
    generalize UInt8.ofNat (0x80 + n % 64) = b2 at e2 ⊢
    unfold decodeRune
    rw [if_neg (by rw [UInt8.lt_iff_toNat_lt, e0]; simp only [UInt8.reduceToNat]; omega)]
    simp only [List.cons_append, List.nil_append]
    rw [if_neg, if_pos]
    · unfold cp3; rw [e0, e1, e2]; congr 2; omega
    · rw [Bool.and_eq_true]
      constructor
      · unfold is3
        split
        · rename_i h; have := congrArg UInt8.toNat h; rw [e0] at this; simp only [UInt8.reduceToNat] at this
          simp only [Bool.and_eq_true, decide_eq_true_eq, UInt8.le_iff_toNat_le, e1, UInt8.reduceToNat]; omega
        · rename_i hE0
          split
          · rename_i h; have := congrArg UInt8.toNat h; rw [e0] at this; simp only [UInt8.reduceToNat] at this
            simp only [Bool.and_eq_true, decide_eq_true_eq, UInt8.le_iff_toNat_le, e1, UInt8.reduceToNat]; omega
          · have n0 : b0.toNat ≠ 224 := fun e => hE0 (UInt8.toNat_inj.mp e)
            rw [e0] at n0
            simp only [isCont, Bool.and_eq_true, decide_eq_true_eq, UInt8.le_iff_toNat_le, e0, e1, UInt8.reduceToNat]; omega
      · simp only [isCont, Bool.and_eq_true, decide_eq_true_eq, UInt8.le_iff_toNat_le, e2, UInt8.reduceToNat]; omega
    · simp only [is2, isCont, Bool.and_eq_true, decide_eq_true_eq, UInt8.le_iff_toNat_le, e0, e1, UInt8.reduceToNat]; omega
  · rw [if_neg h3]
    refine ⟨_, _, rfl, ?_⟩
    have e0 : (UInt8.ofNat (0xF0 + n / 262144)).toNat = 0xF0 + n / 262144 := ofNat_toNat8 (by omega)
    have e1 : (UInt8.ofNat (0x80 + n / 4096 % 64)).toNat = 0x80 + n / 4096 % 64 := ofNat_toNat8 (by omega)
    have e2 : (UInt8.ofNat (0x80 + n / 64 % 64)).toNat = 0x80 + n / 64 % 64 := ofNat_toNat8 (by omega)
    have e3 : (UInt8.ofNat (0x80 + n % 64)).toNat = 0x80 + n % 64 := ofNat_toNat8 (by omega)
    generalize UInt8.ofNat (0xF0 + n / 262144) = b0 at e0 ⊢
    generalize UInt8.ofNat (0x80 + n / 4096 % 64) = b1 at e1 ⊢
    generalize UInt8.ofNat (0x80 + n / 64 % 64) = b2 at e2 ⊢
    generalize UInt8.ofNat (0x80 + n % 64) = b3 at e3 ⊢
    unfold decodeRune
    rw [if_neg (by rw [UInt8.lt_iff_toNat_lt, e0]; simp only [UInt8.reduceToNat]; omega)]
    simp only [List.cons_append, List.nil_append]
    rw [if_neg, if_neg, if_pos]
    · unfold cp4; rw [e0, e1, e2, e3]; congr 2; omega
    · rw [Bool.and_eq_true, Bool.and_eq_true]
      refine ⟨⟨?_, ?_⟩, ?_⟩
      · unfold is4
        split
        · rename_i h; have := congrArg UInt8.toNat h; rw [e0] at this; simp only [UInt8.reduceToNat] at this
          simp only [Bool.and_eq_true, decide_eq_true_eq, UInt8.le_iff_toNat_le, e1, UInt8.reduceToNat]; omega
        · rename_i hE0
          split
          · rename_i h; have := congrArg UInt8.toNat h; rw [e0] at this; simp only [UInt8.reduceToNat] at this
            simp only [Bool.and_eq_true, decide_eq_true_eq, UInt8.le_iff_toNat_le, e1, UInt8.reduceToNat]; omega
          · rename_i hF4
            have n0 : b0.toNat ≠ 240 := fun e => hE0 (UInt8.toNat_inj.mp e)
            have n1 : b0.toNat ≠ 244 := fun e => hF4 (UInt8.toNat_inj.mp e)
            rw [e0] at n0 n1
            simp only [isCont, Bool.and_eq_true, decide_eq_true_eq, UInt8.le_iff_toNat_le, e0, e1, UInt8.reduceToNat]; omega
      · simp only [isCont, Bool.and_eq_true, decide_eq_true_eq, UInt8.le_iff_toNat_le, e2, UInt8.reduceToNat]; omega
      · simp only [isCont, Bool.and_eq_true, decide_eq_true_eq, UInt8.le_iff_toNat_le, e3, UInt8.reduceToNat]; omega
    · unfold is3
      rw [if_neg, if_neg]
      · simp only [isCont, Bool.and_eq_true, decide_eq_true_eq, UInt8.le_iff_toNat_le, e0, e1, UInt8.reduceToNat]; omega
      · intro h; have := congrArg UInt8.toNat h; rw [e0] at this; simp only [UInt8.reduceToNat] at this; omega
      · intro h; have := congrArg UInt8.toNat h; rw [e0] at this; simp only [UInt8.reduceToNat] at this; omega
    · simp only [is2, isCont, Bool.and_eq_true, decide_eq_true_eq, UInt8.le_iff_toNat_le, e0, e1, UInt8.reduceToNat]; omega

theorem decode_utf8 (cs : List Char) : decode (utf8 cs) = cs.map runeOf := by
  induction cs with
  | nil => rfl
  | cons c cs ih =>
    obtain ⟨b, t, h1, h2⟩ := decodeRune_char c (utf8 cs)
    have h3 : utf8 (c :: cs) = b :: (t ++ utf8 cs) := by
      rw [utf8, List.flatMap_cons, h1]; rfl
    rw [h3, decode_cons, h2, List.map_cons]
    congr 1
    have h4 : (runeOf c).enc.length - 1 = t.length := by simp [runeOf, h1]
    rw [h4, List.drop_left, ih]

theorem utf8Valid_utf8 (cs : List Char) : utf8Valid (utf8 cs) = true := by
  rw [utf8Valid_iff, decode_utf8]
  intro r hr
  obtain ⟨c, _, rfl⟩ := List.mem_map.mp hr
  rfl

theorem utf8Valid_iff_text (dat : Bytes) : utf8Valid dat = true ↔ (text dat).isSome := by
  constructor
  · intro h
    obtain ⟨cs, h1, _⟩ := utf8Valid_text h
    rw [h1]; rfl
  · intro h
    obtain ⟨cs, h1⟩ := Option.isSome_iff_exists.mp h
    rw [text_some h1]; exact utf8Valid_utf8 cs

theorem utf8Valid_false_iff (dat : Bytes) : utf8Valid dat = false ↔ text dat = none := by
  rw [← Bool.not_eq_true, utf8Valid_iff_text]; simp

theorem isText_iff {dat : Bytes} : IsText dat ↔ utf8Valid dat = true := by
  constructor
  · rintro ⟨cs, rfl⟩; exact utf8Valid_utf8 cs
  · intro h
    obtain ⟨cs, h1, _⟩ := utf8Valid_text h
    exact ⟨cs, text_some h1⟩

theorem lowerChar_toNat (u : Uni) (c : Char) : (lowerChar u c).toNat = u.toLower c.toNat :=
  toNat_ofNat_valid (u.scalar _ (char_valid c))

theorem encodeChar_ascii {c : Char} (h : ∀ b ∈ String.utf8EncodeChar c, b < 0x80) :
    c.toNat < 0x80 ∧ String.utf8EncodeChar c = [UInt8.ofNat c.toNat] := by
  have h1 : c.toNat < 0x80 := by
    obtain ⟨b, t, h1, h2⟩ := decodeRune_char c []
    have h3 := h b (by simp [h1])
    unfold decodeRune at h2
    rw [if_pos h3] at h2
    unfold runeOf at h2
    injection h2 with h2 _
    injection h2 with h2
    rw [← h2]; exact h3
  refine ⟨h1, ?_⟩
  rw [← encodeRune_char]; unfold encodeRune; rw [if_pos h1]

theorem bytesToLower_utf8 (u : Uni) (cs : List Char) : bytesToLower u (utf8 cs) = utf8 (cs.map (lowerChar u)) := by
  unfold bytesToLower
  split
  · rename_i h
    rw [List.all_eq_true] at h
    simp only [decide_eq_true_eq] at h
    induction cs with
    | nil => rfl
    | cons c cs ih =>
      have hs : utf8 (c :: cs) = String.utf8EncodeChar c ++ utf8 cs := rfl
      rw [hs] at h
      obtain ⟨h1, h2⟩ := encodeChar_ascii (fun b hb => h b (List.mem_append_left _ hb))
      have h3 : utf8 ((c :: cs).map (lowerChar u)) = String.utf8EncodeChar (lowerChar u c) ++ utf8 (cs.map (lowerChar u)) := rfl
      rw [h3, hs, List.map_append, ih (fun b hb => h b (List.mem_append_right _ hb)), h2]
      congr 1
      rw [← encodeRune_char, lowerChar_toNat, u.lower _ h1]
      unfold encodeRune
      rw [if_pos (by split <;> omega)]
      simp only [List.map_cons, List.map_nil, List.cons.injEq, and_true]
      apply UInt8.toNat_inj.mp
      rw [lowerByte_toNat, ofNat_toNat8 (by omega), ofNat_toNat8 (by split <;> omega)]
  · rw [decode_utf8, List.flatMap_map, utf8, List.flatMap_map]
    congr 1
    funext c
    change encodeRune (u.toLower c.toNat) = _
    rw [← lowerChar_toNat, encodeRune_char]

end Dupi
