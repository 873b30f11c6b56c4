import Verif.Proof.Utf8
import Verif.Model.Blotter
/-! `bytes.ToLower` ignores ASCII case, also in words with non-ASCII characters. -/

namespace Dupi

theorem lowerByte_ge {b : UInt8} (h : ¬ b < 0x80) : lowerByte b = b := by
  unfold lowerByte
  rw [if_neg]
  intro ⟨_, h2⟩
  rw [UInt8.lt_iff_toNat_lt] at h
  rw [UInt8.le_iff_toNat_le] at h2
  simp at h h2; omega

theorem lowerByte_toNat (b : UInt8) :
    (lowerByte b).toNat = if 65 ≤ b.toNat ∧ b.toNat ≤ 90 then b.toNat + 32 else b.toNat := by
  unfold lowerByte
  by_cases h : 65 ≤ b ∧ b ≤ 90
  · have h' : 65 ≤ b.toNat ∧ b.toNat ≤ 90 := by
      simpa [UInt8.le_iff_toNat_le] using h
    rw [if_pos h, if_pos h', UInt8.toNat_add]
    simp; omega
  · have h' : ¬ (65 ≤ b.toNat ∧ b.toNat ≤ 90) := by
      simpa [UInt8.le_iff_toNat_le] using h
    rw [if_neg h, if_neg h']

theorem lowerByte_lt (b : UInt8) : (lowerByte b < 0x80) = (b < 0x80) := by
  simp only [UInt8.lt_iff_toNat_lt, lowerByte_toNat]
  apply propext
  split <;> simp <;> omega

theorem lowerByte_idem (b : UInt8) : lowerByte (lowerByte b) = lowerByte b := by
  apply UInt8.toNat_inj.mp
  simp only [lowerByte_toNat]
  repeat' split
  all_goals omega

theorem isCont_lt {b : UInt8} (h : b < 0x80) : isCont b = false := by
  rw [UInt8.lt_iff_toNat_lt] at h
  simp only [isCont, UInt8.le_iff_toNat_le, Bool.and_eq_false_iff, decide_eq_false_iff_not]
  left; simp at h ⊢; omega

theorem isCont_low (b : UInt8) : isCont (lowerByte b) = isCont b := by
  by_cases h : b < 0x80
  · rw [isCont_lt h, isCont_lt (by rw [lowerByte_lt]; exact h)]
  · rw [lowerByte_ge h]

theorem is2_lt {b0 b1 : UInt8} (h : b1 < 0x80) : is2 b0 b1 = false := by
  simp [is2, isCont_lt h]

theorem is3_lt {b0 b1 : UInt8} (h : b1 < 0x80) : is3 b0 b1 = false := by
  have h' := h
  rw [UInt8.lt_iff_toNat_lt] at h'
  unfold is3
  split
  · simp only [UInt8.le_iff_toNat_le, Bool.and_eq_false_iff, decide_eq_false_iff_not]
    left; simp at h' ⊢; omega
  · split
    · simp only [UInt8.le_iff_toNat_le, Bool.and_eq_false_iff, decide_eq_false_iff_not]
      left; simp at h' ⊢; omega
    · simp [isCont_lt h]

theorem is4_lt {b0 b1 : UInt8} (h : b1 < 0x80) : is4 b0 b1 = false := by
  have h' := h
  rw [UInt8.lt_iff_toNat_lt] at h'
  unfold is4
  split
  · simp only [UInt8.le_iff_toNat_le, Bool.and_eq_false_iff, decide_eq_false_iff_not]
    left; simp at h' ⊢; omega
  · split
    · simp only [UInt8.le_iff_toNat_le, Bool.and_eq_false_iff, decide_eq_false_iff_not]
      left; simp at h' ⊢; omega
    · simp [isCont_lt h]

theorem is2_low (b0 b1 : UInt8) : is2 b0 (lowerByte b1) = is2 b0 b1 := by
  by_cases h : b1 < 0x80
  · rw [is2_lt h, is2_lt (by rw [lowerByte_lt]; exact h)]
  · rw [lowerByte_ge h]

theorem is3_low (b0 b1 : UInt8) : is3 b0 (lowerByte b1) = is3 b0 b1 := by
  by_cases h : b1 < 0x80
  · rw [is3_lt h, is3_lt (by rw [lowerByte_lt]; exact h)]
  · rw [lowerByte_ge h]

theorem is4_low (b0 b1 : UInt8) : is4 b0 (lowerByte b1) = is4 b0 b1 := by
  by_cases h : b1 < 0x80
  · rw [is4_lt h, is4_lt (by rw [lowerByte_lt]; exact h)]
  · rw [lowerByte_ge h]

theorem ge_of_cont {b : UInt8} (h : isCont b = true) : ¬ b < 0x80 := by
  intro hlt; rw [isCont_lt hlt] at h; cases h

theorem cp2_ge {b0 b1 : UInt8} (h : is2 b0 b1 = true) : 0x80 ≤ cp2 b0 b1 := by
  simp only [is2, Bool.and_eq_true, decide_eq_true_eq, UInt8.le_iff_toNat_le] at h
  have h1 := h.1.1; have h2 := h.1.2
  simp at h1 h2
  unfold cp2; omega

theorem cp3_ge {b0 b1 b2 : UInt8} (h : is3 b0 b1 = true) : 0x80 ≤ cp3 b0 b1 b2 := by
  unfold is3 at h
  have hb := b1.toNat_lt
  split at h
  · simp only [Bool.and_eq_true, decide_eq_true_eq, UInt8.le_iff_toNat_le] at h
    have h1 := h.1; have h2 := h.2
    simp at h1 h2
    unfold cp3; omega
  · split at h
    · rename_i _ h0; subst h0
      unfold cp3; simp; omega
    · rename_i hE0 hED
      simp only [Bool.and_eq_true, decide_eq_true_eq, UInt8.le_iff_toNat_le] at h
      have h1 := h.1.1; have h2 := h.1.2
      simp at h1 h2
      unfold cp3; omega

theorem cp4_ge {b0 b1 b2 b3 : UInt8} (h : is4 b0 b1 = true) : 0x80 ≤ cp4 b0 b1 b2 b3 := by
  unfold is4 at h
  split at h
  · simp only [Bool.and_eq_true, decide_eq_true_eq, UInt8.le_iff_toNat_le] at h
    have h1 := h.1; have h2 := h.2
    simp at h1 h2
    unfold cp4; omega
  · split at h
    · rename_i _ h0; subst h0
      unfold cp4; simp; omega
    · simp only [Bool.and_eq_true, decide_eq_true_eq, UInt8.le_iff_toNat_le] at h
      have h1 := h.1.1; have h2 := h.1.2
      simp at h1 h2
      unfold cp4; omega

/-- ASCII lower case of a code point -/
def lowerCp (c : Nat) : Nat := if 65 ≤ c ∧ c ≤ 90 then c + 32 else c

def lowerRune (r : Rune) : Rune := ⟨r.cp.map lowerCp, r.enc.map lowerByte⟩

theorem lowerCp_ge {c : Nat} (h : 0x80 ≤ c) : lowerCp c = c := by
  unfold lowerCp; rw [if_neg (by omega)]

theorem decodeRune_low (b : UInt8) (t : Bytes) :
    decodeRune (lowerByte b) (t.map lowerByte) = lowerRune (decodeRune b t) := by
  unfold decodeRune
  by_cases hb : b < 0x80
  · simp only [lowerByte_lt, hb, if_true, lowerRune, Option.map_some, List.map_cons, List.map_nil,
      lowerByte_toNat, lowerCp]
  · simp only [lowerByte_ge hb, hb, if_false]
    cases t with
    | nil => simp [lowerRune, lowerByte_ge hb]
    | cons b1 t =>
      simp only [List.map_cons, is2_low]
      by_cases h2 : is2 b b1 = true
      · have hb1 : ¬ b1 < 0x80 := by
          intro h; rw [is2_lt h] at h2; cases h2
        simp [h2, lowerRune, lowerByte_ge hb, lowerByte_ge hb1, lowerCp_ge (cp2_ge h2)]
      · simp only [h2, Bool.false_eq_true, if_false]
        cases t with
        | nil => simp [lowerRune, lowerByte_ge hb]
        | cons b2 t =>
          simp only [List.map_cons, is3_low, isCont_low]
          by_cases h3 : (is3 b b1 && isCont b2) = true
          · have h3' := h3
            simp only [Bool.and_eq_true] at h3'
            have hb1 : ¬ b1 < 0x80 := by
              intro h; rw [is3_lt h] at h3'; exact absurd h3'.1 (by simp)
            have hb2 := ge_of_cont h3'.2
            simp [h3'.1, h3'.2, lowerRune, lowerByte_ge hb, lowerByte_ge hb1, lowerByte_ge hb2,
              lowerCp_ge (cp3_ge h3'.1)]
          · simp only [h3, Bool.false_eq_true, if_false]
            cases t with
            | nil => simp [lowerRune, lowerByte_ge hb]
            | cons b3 t =>
              simp only [List.map_cons, is4_low, isCont_low]
              by_cases h4 : (is4 b b1 && isCont b2 && isCont b3) = true
              · have h4' := h4
                simp only [Bool.and_eq_true] at h4'
                have hb1 : ¬ b1 < 0x80 := by
                  intro h; rw [is4_lt h] at h4'; exact absurd h4'.1.1 (by simp)
                have hb2 := ge_of_cont h4'.1.2
                have hb3 := ge_of_cont h4'.2
                simp [h4'.1.1, h4'.1.2, h4'.2, lowerRune, lowerByte_ge hb, lowerByte_ge hb1,
                  lowerByte_ge hb2, lowerByte_ge hb3, lowerCp_ge (cp4_ge h4'.1.1)]
              · simp [h4, lowerRune, lowerByte_ge hb]

theorem decode_low (s : Bytes) : decode (s.map lowerByte) = (decode s).map lowerRune := by
  generalize hn : s.length = n
  induction n using Nat.strongRecOn generalizing s with
  | _ n ih =>
    cases s with
    | nil => rfl
    | cons b t =>
      rw [List.map_cons, decode_cons, decode_cons, decodeRune_low, List.map_cons]
      congr 1
      rw [show (lowerRune (decodeRune b t)).enc.length = (decodeRune b t).enc.length by simp [lowerRune],
        ← List.map_drop]
      exact ih _ (by simp only [List.length_cons] at hn; simp; omega) _ rfl

theorem toLower_lowerCp (u : Uni) (c : Nat) : u.toLower (lowerCp c) = u.toLower c := by
  by_cases h : c < 0x80
  · unfold lowerCp
    split
    · rename_i h'
      rw [u.lower c h, if_pos h', u.lower (c + 32) (by omega), if_neg (by omega)]
    · rfl
  · rw [lowerCp_ge (by omega)]

theorem bytesToLower_low (u : Uni) (s : Bytes) :
    bytesToLower u (s.map lowerByte) = bytesToLower u s := by
  have hall : (s.map lowerByte).all (· < 0x80) = s.all (· < 0x80) := by
    rw [List.all_map]
    congr 1
    funext b
    simp [lowerByte_lt]
  unfold bytesToLower
  rw [hall]
  split
  · rw [List.map_map]; congr 1; funext b; exact lowerByte_idem b
  · rw [decode_low, List.flatMap_map]
    congr 1
    funext r
    simp only [lowerRune]
    cases r.cp with
    | none => rfl
    | some c => simp [toLower_lowerCp u]

theorem wordHash_low (u : Uni) (w : Bytes) : wordHash u (w.map lowerByte) = wordHash u w := by
  rw [wordHash, wordHash, bytesToLower_low u]

/-- words equal up to ASCII case have equal hashes -/
theorem wordHash_case (u : Uni) {w w' : Bytes} (h : w.map lowerByte = w'.map lowerByte) :
    wordHash u w = wordHash u w' := by
  rw [wordHash, wordHash, ← bytesToLower_low u w, h, bytesToLower_low u]

end Dupi
