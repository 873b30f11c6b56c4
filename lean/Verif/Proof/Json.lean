import Verif.Model.Json
import Verif.Proof.Utf8
/-! What the JSON reader makes of what the JSON writer wrote. -/

namespace Dupi.Json

/-- valid code points encode to the bytes they were decoded from -/
theorem encodeRune_decodeRune (b : UInt8) (t : Bytes) (c : Nat) (h : (decodeRune b t).cp = some c) : encodeRune c = (decodeRune b t).enc := by
  have lt8 : ∀ x : UInt8, x.toNat < 256 := fun x => x.toNat_lt
  revert h
  unfold decodeRune
  by_cases h1 : b < 0x80
  · rw [if_pos h1]
    intro h; injection h with h; subst h
    have h1' : b.toNat < 128 := h1
    simp only [encodeRune, h1', if_pos, UInt8.ofNat_toNat]
  · rw [if_neg h1]
    have h1' : 128 ≤ b.toNat := Nat.not_lt.mp h1
    cases t with
    | nil => intro h; cases h
    | cons b1 t =>
      dsimp only
      by_cases h2 : is2 b b1 = true
      · rw [if_pos h2]
        intro h; injection h with h
        simp only [is2, isCont, Bool.and_eq_true, decide_eq_true_eq, UInt8.le_iff_toNat_le] at h2
        simp only [UInt8.reduceToNat] at h2
        have hc : c = (b.toNat % 32) * 64 + b1.toNat % 64 := h.symm
        unfold encodeRune
        rw [if_neg (by omega), if_pos (by omega)]
        have e1 : UInt8.ofNat (0xC0 + c / 64) = b := UInt8.toNat_inj.mp (by rw [UInt8.toNat_ofNat']; omega)
        have e2 : UInt8.ofNat (0x80 + c % 64) = b1 := UInt8.toNat_inj.mp (by rw [UInt8.toNat_ofNat']; omega)
        rw [e1, e2]
      · rw [if_neg h2]
        cases t with
        | nil => intro h; cases h
        | cons b2 t =>
          dsimp only
          by_cases h3 : (is3 b b1 && isCont b2) = true
          · rw [if_pos h3]
            intro h; injection h with h
            have hc : c = (b.toNat % 16) * 4096 + (b1.toNat % 64) * 64 + b2.toNat % 64 := h.symm
            have hb : 224 ≤ b.toNat ∧ b.toNat ≤ 239 ∧ 128 ≤ b1.toNat ∧ b1.toNat ≤ 191 ∧ 128 ≤ b2.toNat ∧ b2.toNat ≤ 191 ∧
                (b.toNat = 224 → 160 ≤ b1.toNat) ∧ (b.toNat = 237 → b1.toNat ≤ 159) := by
              simp only [is3, isCont, Bool.and_eq_true] at h3
              obtain ⟨h3, h4⟩ := h3
              simp only [decide_eq_true_eq, UInt8.le_iff_toNat_le, UInt8.reduceToNat] at h4
              by_cases e0 : b = 0xE0
              · rw [if_pos e0] at h3
                simp only [Bool.and_eq_true, decide_eq_true_eq, UInt8.le_iff_toNat_le, UInt8.reduceToNat] at h3
                have : b.toNat = 224 := by rw [e0]; rfl
                refine ⟨?_, ?_, ?_, ?_, ?_, ?_, ?_, ?_⟩ <;> omega
              · rw [if_neg e0] at h3
                have n0 : b.toNat ≠ 224 := fun e => e0 (UInt8.toNat_inj.mp e)
                by_cases e1 : b = 0xED
                · rw [if_pos e1] at h3
                  simp only [Bool.and_eq_true, decide_eq_true_eq, UInt8.le_iff_toNat_le, UInt8.reduceToNat] at h3
                  have : b.toNat = 237 := by rw [e1]; rfl
                  refine ⟨?_, ?_, ?_, ?_, ?_, ?_, ?_, ?_⟩ <;> omega
                · rw [if_neg e1] at h3
                  have n1 : b.toNat ≠ 237 := fun e => e1 (UInt8.toNat_inj.mp e)
                  simp only [Bool.and_eq_true, decide_eq_true_eq, UInt8.le_iff_toNat_le, UInt8.reduceToNat] at h3
                  refine ⟨?_, ?_, ?_, ?_, ?_, ?_, ?_, ?_⟩ <;> omega
            obtain ⟨g1, g2, g3, g4, g5, g6, g7, g8⟩ := hb
            have k1 : ¬ c < 0x800 := by
              by_cases e : b.toNat = 224
              · have := g7 e; clear g7 g8; omega
              · clear g7 g8; omega
            have k2 : ¬ (0xD800 ≤ c ∧ c ≤ 0xDFFF ∨ 0x10FFFF < c) := by
              by_cases e : b.toNat = 237
              · have := g8 e; clear g7 g8; omega
              · clear g7 g8; omega
            clear g7 g8
            unfold encodeRune
            rw [if_neg (by omega), if_neg k1, if_neg k2, if_pos (by omega)]
            have e1 : UInt8.ofNat (0xE0 + c / 4096) = b := UInt8.toNat_inj.mp (by rw [UInt8.toNat_ofNat']; omega)
            have e2 : UInt8.ofNat (0x80 + c / 64 % 64) = b1 := UInt8.toNat_inj.mp (by rw [UInt8.toNat_ofNat']; omega)
            have e3 : UInt8.ofNat (0x80 + c % 64) = b2 := UInt8.toNat_inj.mp (by rw [UInt8.toNat_ofNat']; omega)
            rw [e1, e2, e3]
          · rw [if_neg h3]
            cases t with
            | nil => intro h; cases h
            | cons b3 t =>
              dsimp only
              by_cases h4 : (is4 b b1 && isCont b2 && isCont b3) = true
              · rw [if_pos h4]
                intro h; injection h with h
                have hc : c = (b.toNat % 8) * 262144 + (b1.toNat % 64) * 4096 + (b2.toNat % 64) * 64 + b3.toNat % 64 := h.symm
                have hb : 240 ≤ b.toNat ∧ b.toNat ≤ 244 ∧ 128 ≤ b1.toNat ∧ b1.toNat ≤ 191 ∧ 128 ≤ b2.toNat ∧ b2.toNat ≤ 191 ∧
                    128 ≤ b3.toNat ∧ b3.toNat ≤ 191 ∧ (b.toNat = 240 → 144 ≤ b1.toNat) ∧ (b.toNat = 244 → b1.toNat ≤ 143) := by
                  simp only [is4, isCont, Bool.and_eq_true] at h4
                  obtain ⟨⟨h4, h5⟩, h6⟩ := h4
                  simp only [decide_eq_true_eq, UInt8.le_iff_toNat_le, UInt8.reduceToNat] at h5 h6
                  by_cases e0 : b = 0xF0
                  · rw [if_pos e0] at h4
                    simp only [Bool.and_eq_true, decide_eq_true_eq, UInt8.le_iff_toNat_le, UInt8.reduceToNat] at h4
                    have : b.toNat = 240 := by rw [e0]; rfl
                    refine ⟨?_, ?_, ?_, ?_, ?_, ?_, ?_, ?_, ?_, ?_⟩ <;> omega
                  · rw [if_neg e0] at h4
                    have n0 : b.toNat ≠ 240 := fun e => e0 (UInt8.toNat_inj.mp e)
                    by_cases e1 : b = 0xF4
                    · rw [if_pos e1] at h4
                      simp only [Bool.and_eq_true, decide_eq_true_eq, UInt8.le_iff_toNat_le, UInt8.reduceToNat] at h4
                      have : b.toNat = 244 := by rw [e1]; rfl
                      refine ⟨?_, ?_, ?_, ?_, ?_, ?_, ?_, ?_, ?_, ?_⟩ <;> omega
                    · rw [if_neg e1] at h4
                      have n1 : b.toNat ≠ 244 := fun e => e1 (UInt8.toNat_inj.mp e)
                      simp only [Bool.and_eq_true, decide_eq_true_eq, UInt8.le_iff_toNat_le, UInt8.reduceToNat] at h4
                      refine ⟨?_, ?_, ?_, ?_, ?_, ?_, ?_, ?_, ?_, ?_⟩ <;> omega
                obtain ⟨g1, g2, g3, g4, g5, g6, g7, g8, g9, g10⟩ := hb
                have k1 : 0x10000 ≤ c := by
                  by_cases e : b.toNat = 240
                  · have := g9 e; clear g9 g10; omega
                  · clear g9 g10; omega
                have k2 : c ≤ 0x10FFFF := by
                  by_cases e : b.toNat = 244
                  · have := g10 e; clear g9 g10; omega
                  · clear g9 g10; omega
                clear g9 g10
                unfold encodeRune
                rw [if_neg (by omega), if_neg (by omega), if_neg (by omega), if_neg (by omega)]
                have e1 : UInt8.ofNat (0xF0 + c / 262144) = b := UInt8.toNat_inj.mp (by rw [UInt8.toNat_ofNat']; omega)
                have e2 : UInt8.ofNat (0x80 + c / 4096 % 64) = b1 := UInt8.toNat_inj.mp (by rw [UInt8.toNat_ofNat']; omega)
                have e3 : UInt8.ofNat (0x80 + c / 64 % 64) = b2 := UInt8.toNat_inj.mp (by rw [UInt8.toNat_ofNat']; omega)
                have e4 : UInt8.ofNat (0x80 + c % 64) = b3 := UInt8.toNat_inj.mp (by rw [UInt8.toNat_ofNat']; omega)
                rw [e1, e2, e3, e4]
              · rw [if_neg h4]; intro h; cases h

/-- a rune of a string: the bytes it stands for when read back -/
def cleanRune (r : Rune) : Bytes := if r.cp.isSome then r.enc else [0xEF, 0xBF, 0xBD]

/-- the string with invalid bytes replaced by U+FFFD -/
def clean (s : Bytes) : Bytes := (decode s).flatMap cleanRune

theorem clean_valid {s : Bytes} (h : utf8Valid s = true) : clean s = s := by
  conv => rhs; rw [← decode_flat s]
  rw [utf8Valid_iff] at h
  have : ∀ rs : List Rune, (∀ r ∈ rs, r.cp.isSome) → rs.flatMap cleanRune = rs.flatMap Rune.enc := by
    intro rs
    induction rs with
    | nil => intro _; rfl
    | cons r rs ih =>
      intro hr
      rw [List.flatMap_cons, List.flatMap_cons, ih (fun x hx => hr x (by simp [hx]))]
      simp [cleanRune, hr r (by simp)]
  exact this _ h

/-- a rune that decoding can give -/
def IsRune (r : Rune) : Prop := ∃ b t, r = decodeRune b t

theorem decode_isRune (s : Bytes) : ∀ r ∈ decode s, IsRune r := by
  generalize hn : s.length = n
  induction n using Nat.strongRecOn generalizing s with
  | _ n ih =>
    cases s with
    | nil => simp [decode_nil]
    | cons b t =>
      rw [decode_cons]
      intro r hr
      rcases List.mem_cons.mp hr with rfl | hr
      · exact ⟨b, t, rfl⟩
      · exact ih _ (by simp only [List.length_cons] at hn; simp; omega) _ rfl r hr

theorem hexDigit_val : ∀ n, n < 16 → hexVal (hexDigit n) = some n := by decide

theorem uEscape_bmp {c : Nat} (h : ¬ (0xD800 ≤ c ∧ c < 0xDC00)) (t : Bytes) : uEscape c t = (c, t) := by
  unfold uEscape; rw [if_neg h]

/-- the first byte of a valid rune -/
theorem decodeRune_first (b : UInt8) (t : Bytes) (c : Nat) (h : (decodeRune b t).cp = some c) : (b.toNat < 128 ∧ c = b.toNat) ∨ (128 ≤ b.toNat ∧ 128 ≤ c) := by
  have he := encodeRune_decodeRune b t c h
  rw [decodeRune_enc] at he
  by_cases h1 : b < 0x80
  · left
    refine ⟨h1, ?_⟩
    unfold decodeRune at h; rw [if_pos h1] at h; injection h with h; exact h.symm
  · right
    have h1' : 128 ≤ b.toNat := Nat.not_lt.mp h1
    refine ⟨h1', ?_⟩
    rcases Nat.lt_or_ge c 128 with hc | hc
    · unfold encodeRune at he
      rw [if_pos hc] at he
      injection he with he _
      have := congrArg UInt8.toNat he
      rw [UInt8.toNat_ofNat'] at this
      omega
    · exact hc

theorem rune_step {r : Rune} (hr : IsRune r) (n : Nat) (t : Bytes) :
    parseStr (n + 1) (encRune r ++ t) = (do let (s, rest) ← parseStr n t; return (cleanRune r ++ s, rest)) := by
  obtain ⟨b, t0, rfl⟩ := hr
  cases hcp : (decodeRune b t0).cp with
  | none =>
    have he : encRune (decodeRune b t0) = [92, 117, 102, 102, 102, 100] := by unfold encRune; rw [hcp]
    have hx : ∀ t, hex4 (102 :: 102 :: 102 :: 100 :: t) = some (0xFFFD, t) := fun t => rfl
    rw [he]
    simp only [List.cons_append, List.nil_append, parseStr, cleanRune, hcp]
    rw [if_neg (by decide), if_pos trivial, if_pos trivial, hx]
    simp only
    rw [uEscape_bmp (by omega), show encodeRune 0xFFFD = [0xEF, 0xBF, 0xBD] from by decide]
    rfl
  | some c =>
    have henc := encodeRune_decodeRune b t0 c hcp
    have hclean : cleanRune (decodeRune b t0) = (decodeRune b t0).enc := by simp [cleanRune, hcp]
    have short : ∀ e x : UInt8, c = x.toNat → c < 128 → encRune (decodeRune b t0) = [92, e] → e ≠ 117 →
        (if e = 34 ∨ e = 92 ∨ e = 47 then some e else if e = 98 then some 8 else if e = 102 then some 12 else if e = 110 then some 10
            else if e = 114 then some 13 else if e = 116 then some 9 else none : Option UInt8) = some x →
        parseStr (n + 1) (encRune (decodeRune b t0) ++ t) = (do let (s, rest) ← parseStr n t; return (cleanRune (decodeRune b t0) ++ s, rest)) := by
      intro e x hc hlt he hu hx
      rw [he, hclean, ← henc, encodeRune, if_pos hlt, hc, UInt8.ofNat_toNat]
      simp only [List.cons_append, List.nil_append, parseStr]
      rw [if_neg (by decide), if_pos trivial, if_neg hu, hx]
    have long : ∀ w : Bytes, encRune (decodeRune b t0) = 92 :: 117 :: w → (∀ t, hex4 (w ++ t) = some (c, t)) → ¬ (0xD800 ≤ c ∧ c < 0xDC00) →
        parseStr (n + 1) (encRune (decodeRune b t0) ++ t) = (do let (s, rest) ← parseStr n t; return (cleanRune (decodeRune b t0) ++ s, rest)) := by
      intro w he hx hs
      rw [he, hclean, ← henc]
      simp only [List.cons_append, parseStr]
      rw [if_neg (by decide), if_pos trivial, if_pos trivial, hx]
      simp only
      rw [uEscape_bmp hs]
    have hdef : encRune (decodeRune b t0) = if c = 34 then [92, 34]
      else if c = 92 then [92, 92]
      else if c = 10 then [92, 110]
      else if c = 13 then [92, 114]
      else if c = 9 then [92, 116]
      else if c < 32 ∨ c = 60 ∨ c = 62 ∨ c = 38 then u00 (UInt8.ofNat c)
      else if c = 0x2028 then [92, 117, 50, 48, 50, 56]
      else if c = 0x2029 then [92, 117, 50, 48, 50, 57]
      else (decodeRune b t0).enc := by unfold encRune; rw [hcp]
    by_cases c1 : c = 34
    · exact short 34 34 c1 (by omega) (by rw [hdef, if_pos c1]) (by decide) (by decide)
    by_cases c2 : c = 92
    · exact short 92 92 c2 (by omega) (by rw [hdef, if_neg c1, if_pos c2]) (by decide) (by decide)
    by_cases c3 : c = 10
    · exact short 110 10 c3 (by omega) (by rw [hdef, if_neg c1, if_neg c2, if_pos c3]) (by decide) (by decide)
    by_cases c4 : c = 13
    · exact short 114 13 c4 (by omega) (by rw [hdef, if_neg c1, if_neg c2, if_neg c3, if_pos c4]) (by decide) (by decide)
    by_cases c5 : c = 9
    · exact short 116 9 c5 (by omega) (by rw [hdef, if_neg c1, if_neg c2, if_neg c3, if_neg c4, if_pos c5]) (by decide) (by decide)
    by_cases c6 : c < 32 ∨ c = 60 ∨ c = 62 ∨ c = 38
    · refine long [48, 48, hexDigit (c / 16), hexDigit (c % 16)] ?_ ?_ (by omega)
      · rw [hdef, if_neg c1, if_neg c2, if_neg c3, if_neg c4, if_neg c5, if_pos c6, u00, UInt8.toNat_ofNat', Nat.mod_eq_of_lt (by omega)]
      · intro t
        have z : hexVal 48 = some 0 := by decide
        simp only [List.cons_append, List.nil_append, hex4, z, hexDigit_val (c / 16) (by omega), hexDigit_val (c % 16) (by omega), bind, Option.bind,
          pure, Option.some.injEq, Prod.mk.injEq, and_true]
        omega
    by_cases c7 : c = 0x2028
    · refine long [50, 48, 50, 56] (by rw [hdef, if_neg c1, if_neg c2, if_neg c3, if_neg c4, if_neg c5, if_neg c6, if_pos c7]) ?_ (by omega)
      intro t; rw [c7]; rfl
    by_cases c8 : c = 0x2029
    · refine long [50, 48, 50, 57] (by rw [hdef, if_neg c1, if_neg c2, if_neg c3, if_neg c4, if_neg c5, if_neg c6, if_neg c7, if_pos c8]) ?_ (by omega)
      intro t; rw [c8]; rfl
    rw [hdef, if_neg c1, if_neg c2, if_neg c3, if_neg c4, if_neg c5, if_neg c6, if_neg c7, if_neg c8, hclean]
    have hfirst := decodeRune_first b t0 c hcp
    have hb1 : b ≠ 34 := by rintro rfl; simp at hfirst; omega
    have hb2 : b ≠ 92 := by rintro rfl; simp at hfirst; omega
    have hb3 : ¬ b < 32 := by
      intro h; have h' : b.toNat < 32 := h; omega
    have hext := decodeRune_ext b t0 t (by rw [hcp]; rfl)
    have hle : (decodeRune b t0).enc.length - 1 ≤ t0.length := by
      have := congrArg List.length (decodeRune_enc b t0)
      simp only [List.length_cons, List.length_take] at this
      omega
    have hdrop : (t0.take ((decodeRune b t0).enc.length - 1) ++ t).drop ((decodeRune b t0).enc.length - 1) = t :=
      List.drop_left' (by rw [List.length_take]; omega)
    have hform : (decodeRune b t0).enc ++ t = b :: (t0.take ((decodeRune b t0).enc.length - 1) ++ t) := by
      conv => lhs; rw [decodeRune_enc]
      rfl
    rw [hform]
    simp only [parseStr]
    rw [if_neg hb1, if_neg hb2, if_neg hb3, hext, hdrop, hcp]
    rfl

theorem parseStr_runes (rs : List Rune) (h : ∀ r ∈ rs, IsRune r) : ∀ (n : Nat) (t : Bytes), rs.length < n →
    parseStr n (rs.flatMap encRune ++ 34 :: t) = .ok (rs.flatMap cleanRune, t) := by
  induction rs with
  | nil =>
    intro n t hn
    cases n with
    | zero => simp at hn
    | succ n => simp [parseStr]
  | cons r rs ih =>
    intro n t hn
    cases n with
    | zero => simp at hn
    | succ n =>
      rw [List.flatMap_cons, List.append_assoc, rune_step (h r (by simp)), ih (fun x hx => h x (by simp [hx])) n t (by simpa using hn)]
      rfl

theorem encRune_ne_nil {r : Rune} (h : IsRune r) : encRune r ≠ [] := by
  obtain ⟨b, t, rfl⟩ := h
  have hne := decodeRune_ne_nil b t
  unfold encRune
  generalize (decodeRune b t).enc = e at *
  cases (decodeRune b t).cp with
  | none => simp
  | some c =>
    simp only
    repeat' split
    all_goals first | exact hne | simp [u00]

theorem runes_length (rs : List Rune) (h : ∀ r ∈ rs, IsRune r) : rs.length ≤ (rs.flatMap encRune).length := by
  induction rs with
  | nil => simp
  | cons r rs ih =>
    have h1 := ih (fun x hx => h x (by simp [hx]))
    have h2 : 0 < (encRune r).length := List.length_pos_iff.mpr (encRune_ne_nil (h r (by simp)))
    rw [List.flatMap_cons, List.length_append, List.length_cons]
    omega

/-- reading a string back -/
theorem parseStr_enc (s t : Bytes) : parseStr ((decode s).flatMap encRune ++ 34 :: t).length ((decode s).flatMap encRune ++ 34 :: t) = .ok (clean s, t) := by
  refine parseStr_runes _ (decode_isRune s) _ t ?_
  have := runes_length _ (decode_isRune s)
  rw [List.length_append, List.length_cons]
  omega

theorem encStr_append (s t : Bytes) : encStr s ++ t = 34 :: ((decode s).flatMap encRune ++ 34 :: t) := by simp [encStr]

theorem parseValue_str (d : Nat) (s t : Bytes) : parseValue (d + 1) (encStr s ++ t) = .ok (.str (clean s), t) := by
  rw [encStr_append]
  simp only [parseValue]
  rw [if_neg (by decide), if_neg (by decide), if_pos (by decide), parseStr_enc]
  rfl

/-! ## numbers -/

theorem natDigits_spec : ∀ (fuel n : Nat), n < fuel → (natDigits fuel n ≠ []) ∧ (∀ b ∈ natDigits fuel n, isDig b = true) ∧
    (n ≠ 0 → (natDigits fuel n).head? ≠ some 48) ∧ (n < 10 → natDigits fuel n = [UInt8.ofNat (48 + n)]) := by
  intro fuel
  induction fuel with
  | zero => intro n h; omega
  | succ fuel ih =>
    intro n h
    have digit : ∀ m, m < 10 → isDig (UInt8.ofNat (48 + m)) = true := by decide
    by_cases hn : n < 10
    · refine ⟨by simp [natDigits, hn], ?_, ?_, fun _ => by simp [natDigits, hn]⟩
      · simp only [natDigits, if_pos hn, List.mem_singleton]; rintro b rfl; exact digit n hn
      · intro h0
        simp only [natDigits, if_pos hn, List.head?_cons, ne_eq, Option.some.injEq]
        intro e; have := congrArg UInt8.toNat e; rw [UInt8.toNat_ofNat'] at this
        simp only [UInt8.reduceToNat] at this
        omega
    · obtain ⟨h1, h2, h3, _⟩ := ih (n / 10) (by omega)
      simp only [natDigits, if_neg hn]
      refine ⟨by simp, ?_, ?_, fun h => absurd h hn⟩
      · intro b hb
        rcases List.mem_append.mp hb with hb | hb
        · exact h2 b hb
        · rw [List.mem_singleton] at hb; subst hb; exact digit _ (Nat.mod_lt _ (by omega))
      · intro _
        have := h3 (by omega)
        cases hd : natDigits fuel (n / 10) with
        | nil => exact absurd hd h1
        | cons a l => rw [hd] at this; simpa using this

theorem digitsVal_append (a : Bytes) (d : UInt8) : ∀ acc, digitsVal acc (a ++ [d]) =
    (digitsVal acc a).bind fun n => if isDig d then some (n * 10 + (d.toNat - 48)) else none := by
  induction a with
  | nil => intro acc; simp [digitsVal]
  | cons b a ih =>
    intro acc
    simp only [List.cons_append, digitsVal]
    by_cases hb : isDig b = true
    · rw [if_pos hb, if_pos hb, ih]
    · rw [if_neg hb, if_neg hb]; rfl

theorem digitsVal_natDigits : ∀ (fuel n : Nat), n < fuel → digitsVal 0 (natDigits fuel n) = some n := by
  intro fuel
  induction fuel with
  | zero => intro n h; omega
  | succ fuel ih =>
    intro n h
    have digit : ∀ m, m < 10 → isDig (UInt8.ofNat (48 + m)) = true := by decide
    have val : ∀ m, m < 10 → (UInt8.ofNat (48 + m)).toNat - 48 = m := by decide
    by_cases hn : n < 10
    · simp only [natDigits, if_pos hn, digitsVal, digit n hn, if_true, val n hn]; simp
    · have hm : n % 10 < 10 := Nat.mod_lt _ (by omega)
      simp only [natDigits, if_neg hn]
      rw [digitsVal_append, ih _ (by omega)]
      simp only [Option.bind_some, digit _ hm, if_true, val _ hm, Option.some.injEq]
      omega

theorem parseInt_iff (lit : Bytes) (i : Int) : parseInt lit = .ok i ↔ ∃ t n, t ≠ [] ∧ digitsVal 0 t = some n ∧
    ((lit = t ∧ n < 2 ^ 63 ∧ i = n) ∨ (lit = 45 :: t ∧ n ≤ 2 ^ 63 ∧ i = -(n : Int))) := by
  have minus (t : Bytes) : digitsVal 0 (45 :: t) = none := by rw [digitsVal, if_neg (by decide)]
  unfold parseInt
  split
  · constructor
    · intro h; cases h
    · rintro ⟨t, n, h1, _, ⟨h, _⟩ | ⟨h, _⟩⟩
      · exact absurd h.symm h1
      · cases h
  · constructor
    · intro h; cases h
    · rintro ⟨t, n, h1, h2, ⟨rfl, _⟩ | ⟨h, _⟩⟩
      · rw [minus] at h2; cases h2
      · injection h with _ h; exact absurd h.symm h1
  · rename_i t hne
    have ht : t ≠ [] := fun h => hne (by rw [h])
    constructor
    · intro h
      cases hd : digitsVal 0 t with
      | none => rw [hd] at h; cases h
      | some n =>
        rw [hd] at h
        simp only at h
        split at h
        · rename_i hn
          injection h with h
          exact ⟨t, n, ht, hd, .inr ⟨rfl, hn, h.symm⟩⟩
        · cases h
    · rintro ⟨t', n, h1, h2, ⟨rfl, _⟩ | ⟨h, hn, rfl⟩⟩
      · rw [minus] at h2; cases h2
      · injection h with _ h
        subst h
        simp only [h2, if_pos hn]
  · rename_i hne1 hne2 hne3
    constructor
    · intro h
      cases hd : digitsVal 0 lit with
      | none => rw [hd] at h; cases h
      | some n =>
        rw [hd] at h
        simp only at h
        split at h
        · rename_i hn
          injection h with h
          exact ⟨lit, n, hne1, hd, .inl ⟨rfl, hn, h.symm⟩⟩
        · cases h
    · rintro ⟨t', n, h1, h2, ⟨rfl, hn, rfl⟩ | ⟨h, hn, rfl⟩⟩
      · simp only [h2, if_pos hn]
      · exact absurd h (hne3 t')

theorem parseInt_enc (i : Int) (h1 : -2 ^ 63 ≤ i) (h2 : i < 2 ^ 63) : parseInt (encInt i) = .ok i := by
  rw [parseInt_iff]
  unfold encInt encNat
  have hv := digitsVal_natDigits (i.natAbs + 1) i.natAbs (by omega)
  obtain ⟨hne, hd, _, _⟩ := natDigits_spec (i.natAbs + 1) i.natAbs (by omega)
  refine ⟨_, _, hne, hv, ?_⟩
  by_cases hi : i < 0
  · rw [if_pos hi]
    exact .inr ⟨rfl, by omega, by omega⟩
  · rw [if_neg hi]
    exact .inl ⟨rfl, by omega, by omega⟩

/-- what may follow a number -/
def NumEnd (t : Bytes) : Prop := t.head? = some 44 ∨ t.head? = some 10

theorem NumEnd.cases {t : Bytes} (h : NumEnd t) : ∃ b t', t = b :: t' ∧ (b = 44 ∨ b = 10) := by
  cases t with
  | nil => rcases h with h | h <;> cases h
  | cons b t' => exact ⟨b, t', rfl, by rcases h with h | h <;> simp at h <;> simp [h]⟩

theorem takeWhile_digits (l : Bytes) (hl : ∀ b ∈ l, isDig b = true) (t : Bytes) (ht : NumEnd t) :
    (l ++ t).takeWhile isDig = l ∧ (l ++ t).dropWhile isDig = t := by
  obtain ⟨b, t', rfl, hb⟩ := ht.cases
  have hnb : isDig b = false := by rcases hb with rfl | rfl <;> decide
  induction l with
  | nil => simp [hnb]
  | cons a l ih =>
    have ha := hl a (by simp)
    obtain ⟨h1, h2⟩ := ih (fun b hb => hl b (by simp [hb]))
    constructor
    · rw [List.cons_append, List.takeWhile_cons_of_pos ha, h1]
    · rw [List.cons_append, List.dropWhile_cons_of_pos ha, h2]

theorem parseIntPart_enc (n : Nat) (t : Bytes) (ht : NumEnd t) : parseIntPart (encNat n ++ t) = .ok (encNat n, t) := by
  unfold encNat
  obtain ⟨hne, hd, h0, h1⟩ := natDigits_spec (n + 1) n (by omega)
  by_cases hn : n = 0
  · subst hn; rw [h1 (by omega)]; rfl
  · have h0 := h0 hn
    cases hl : natDigits (n + 1) n with
    | nil => exact absurd hl hne
    | cons b l =>
      rw [hl] at h0 hd
      have hb : b ≠ 48 := by simpa using h0
      obtain ⟨e1, e2⟩ := takeWhile_digits l (fun x hx => hd x (by simp [hx])) t ht
      simp only [List.cons_append, parseIntPart]
      rw [if_neg hb, if_pos (hd b (by simp)), e1, e2]

theorem parseNum_enc (i : Int) (t : Bytes) (ht : NumEnd t) : parseNum (encInt i ++ t) = .ok (.num (encInt i), t) := by
  have hfrac : parseFrac t = .ok ([], t) := by
    obtain ⟨b, t', rfl, hb⟩ := ht.cases
    rcases hb with rfl | rfl <;> rfl
  have hexp : parseExp t = .ok ([], t) := by
    obtain ⟨b, t', rfl, hb⟩ := ht.cases
    rcases hb with rfl | rfl <;> rfl
  unfold encInt
  by_cases hi : i < 0
  · rw [if_pos hi]
    have hsign : ∀ s, parseSign (45 :: s) = ([45], s) := fun s => by simp [parseSign]
    simp only [parseNum, hsign, List.cons_append, parseIntPart_enc _ t ht, hfrac, hexp, bind, Except.bind, pure, Except.pure]
    simp
  · rw [if_neg hi]
    obtain ⟨hne, hd, _, _⟩ := natDigits_spec (i.natAbs + 1) i.natAbs (by omega)
    have key := parseIntPart_enc i.natAbs t ht
    unfold encNat at key ⊢
    cases hl : natDigits (i.natAbs + 1) i.natAbs with
    | nil => exact absurd hl hne
    | cons b l =>
      have hb : b ≠ 45 := by
        rintro rfl
        have := hd 45 (by rw [hl]; simp)
        revert this; decide
      rw [hl] at key
      have hsign : parseSign (b :: l ++ t) = ([], b :: l ++ t) := by simp [parseSign, hb]
      unfold parseNum
      simp only [hsign, key, hfrac, hexp, bind, Except.bind, pure, Except.pure]
      simp

theorem encInt_first (i : Int) : ∃ b l, encInt i = b :: l ∧ (b = 45 ∨ isDig b = true) := by
  unfold encInt
  by_cases hi : i < 0
  · rw [if_pos hi]; exact ⟨45, _, rfl, .inl rfl⟩
  · rw [if_neg hi]
    obtain ⟨hne, hd, _, _⟩ := natDigits_spec (i.natAbs + 1) i.natAbs (by omega)
    unfold encNat
    cases hl : natDigits (i.natAbs + 1) i.natAbs with
    | nil => exact absurd hl hne
    | cons b l => exact ⟨b, l, rfl, .inr (hd b (by rw [hl]; simp))⟩

theorem parseValue_int (d : Nat) (i : Int) (t : Bytes) (ht : NumEnd t) : parseValue (d + 1) (encInt i ++ t) = .ok (.num (encInt i), t) := by
  obtain ⟨b, l, hl, hb⟩ := encInt_first i
  have key := parseNum_enc i t ht
  rw [hl] at key ⊢
  have ne : ∀ x : UInt8, x ≠ 45 → isDig x = false → b ≠ x := by
    rintro x h1 h2 rfl
    rcases hb with h | h
    · exact h1 h
    · rw [h] at h2; cases h2
  simp only [List.cons_append, parseValue]
  rw [if_neg (ne _ (by decide) (by decide)), if_neg (ne _ (by decide) (by decide)), if_neg (ne _ (by decide) (by decide)),
    if_neg (ne _ (by decide) (by decide)), if_neg (ne _ (by decide) (by decide)), if_neg (ne _ (by decide) (by decide))]
  exact key

/-! ## objects -/

/-- a member: key, how its value is written, and its value -/
structure Mem where
  key : String
  txt : Bytes
  val : Value

def Mem.bytes (m : Mem) : Bytes := member m.key m.txt

/-- the value reads back and does not begin with white space -/
structure Mem.Good (pv : Bytes → M (Value × Bytes)) (m : Mem) : Prop where
  key : clean m.key.toUTF8.toList = m.key.toUTF8.toList
  val : ∀ t, NumEnd t → pv (m.txt ++ t) = .ok (m.val, t)
  ws : ∃ b l, m.txt = b :: l ∧ isWs b = false

def Mem.pair (m : Mem) : Bytes × Value := (m.key.toUTF8.toList, m.val)

theorem skipWs_nl (n : Nat) (b : UInt8) (t : Bytes) (hb : isWs b = false) : skipWs (nl n ++ b :: t) = b :: t := by
  unfold skipWs nl
  rw [List.cons_append, List.dropWhile_cons_of_pos (by decide)]
  induction n with
  | zero => simp [hb]
  | succ n ih =>
    rw [List.replicate_succ, List.cons_append, List.dropWhile_cons_of_pos (by decide)]; exact ih

theorem skipWs_cons (b : UInt8) (t : Bytes) (hb : isWs b = false) : skipWs (b :: t) = b :: t := by
  unfold skipWs; rw [List.dropWhile_cons_of_neg (by simp [hb])]

theorem numEnd_nl (n : Nat) (t : Bytes) : NumEnd (nl n ++ t) := .inr rfl
theorem numEnd_comma (t : Bytes) : NumEnd (44 :: t) := .inl rfl

theorem member_append (k : String) (v t : Bytes) : member k v ++ t = 34 :: ((decode k.toUTF8.toList).flatMap encRune ++ 34 :: 58 :: 32 :: (v ++ t)) := by
  simp [member, encStr]

theorem parseMembers_ok (pv : Bytes → M (Value × Bytes)) (k k' : Nat) (ms : List Mem) (hg : ∀ m ∈ ms, m.Good pv) (h0 : ms ≠ []) (t : Bytes) :
    ∀ n, ms.length ≤ n → parseMembers pv n (((ms.map Mem.bytes).intersperse (44 :: nl k)).flatten ++ (nl k' ++ 125 :: t)) = .ok (ms.map Mem.pair, t) := by
  induction ms with
  | nil => exact absurd rfl h0
  | cons m ms ih =>
    intro n hn
    cases n with
    | zero => simp at hn
    | succ n =>
      have g := hg m (by simp)
      obtain ⟨vb, vl, hv, hws⟩ := g.ws
      have hval : ∀ t, skipWs (32 :: (m.txt ++ t)) = m.txt ++ t := by
        intro t
        rw [hv]
        unfold skipWs
        rw [List.dropWhile_cons_of_pos (by decide), List.cons_append, List.dropWhile_cons_of_neg (by simp [hws])]
      cases ms with
      | nil =>
        simp only [List.map_cons, List.map_nil, List.intersperse_singleton, List.flatten_cons, List.flatten_nil, List.append_nil]
        unfold Mem.bytes
        rw [member_append]
        simp only [parseMembers]
        rw [parseStr_enc]
        simp only [bind, Except.bind, skipWs_cons 58 _ (by decide), hval, g.val _ (numEnd_nl k' _), skipWs_nl k' 125 t (by decide), g.key,
          pure, Except.pure]
        rfl
      | cons m' ms =>
        have ih' := ih (fun x hx => hg x (by simp [hx])) (by simp) n (by simpa using hn)
        simp only [List.map_cons] at ih' ⊢
        rw [List.intersperse_cons_cons, List.flatten_cons, List.flatten_cons]
        have hfirst : ∃ l, ((m'.bytes :: ms.map Mem.bytes).intersperse (44 :: nl k)).flatten ++ (nl k' ++ 125 :: t) = 34 :: l := by
          cases ms with
          | nil => simp only [List.map_nil, List.intersperse_singleton, List.flatten_cons]; unfold Mem.bytes; rw [List.append_assoc, member_append]; exact ⟨_, rfl⟩
          | cons => rw [List.map_cons, List.intersperse_cons_cons, List.flatten_cons]; unfold Mem.bytes; rw [List.append_assoc, member_append]; exact ⟨_, rfl⟩
        obtain ⟨l, hl⟩ := hfirst
        rw [List.append_assoc, List.append_assoc, hl]
        rw [hl] at ih'
        unfold Mem.bytes
        rw [member_append]
        simp only [parseMembers]
        rw [parseStr_enc]
        simp only [bind, Except.bind, skipWs_cons 58 _ (by decide), hval, List.cons_append, g.val _ (numEnd_comma _), skipWs_cons 44 _ (by decide),
          skipWs_nl k 34 l (by decide), ih', g.key, pure, Except.pure]
        rfl

theorem members_length (k : Nat) (ms : List Mem) (t : Bytes) : ms.length ≤ (((ms.map Mem.bytes).intersperse (44 :: nl k)).flatten ++ t).length := by
  have : ∀ l : List Bytes, (∀ x ∈ l, x ≠ []) → l.length ≤ (l.intersperse (44 :: nl k)).flatten.length := by
    intro l
    induction l with
    | nil => intro _; simp
    | cons a l ih =>
      intro h
      have ha : 0 < a.length := List.length_pos_iff.mpr (h a (by simp))
      have := ih (fun x hx => h x (by simp [hx]))
      cases l with
      | nil => simp; omega
      | cons b l =>
        rw [List.intersperse_cons_cons, List.flatten_cons, List.flatten_cons]
        simp only [List.length_append, List.length_cons] at this ⊢
        omega
  have h1 := this (ms.map Mem.bytes) (by
    intro x hx
    obtain ⟨m, _, rfl⟩ := List.mem_map.mp hx
    simp [Mem.bytes, member, encStr])
  rw [List.length_map] at h1
  rw [List.length_append]
  omega

theorem parseValue_obj (d k : Nat) (ms : List Mem) (hg : ∀ m ∈ ms, m.Good (parseValue (d + 1))) (h0 : ms ≠ []) (t : Bytes) :
    parseValue (d + 2) (object k (ms.map Mem.bytes) ++ t) = .ok (.obj (ms.map Mem.pair), t) := by
  have hform : object k (ms.map Mem.bytes) ++ t = 123 :: (nl (k + 1) ++ (((ms.map Mem.bytes).intersperse (44 :: nl (k + 1))).flatten ++ (nl k ++ 125 :: t))) := by
    simp [object]
  have hfirst : ∃ l, ((ms.map Mem.bytes).intersperse (44 :: nl (k + 1))).flatten ++ (nl k ++ 125 :: t) = 34 :: l := by
    match ms, h0 with
    | [m], _ => simp only [List.map_cons, List.map_nil, List.intersperse_singleton, List.flatten_cons]; unfold Mem.bytes; rw [List.append_assoc, member_append]; exact ⟨_, rfl⟩
    | m :: m' :: ms, _ => rw [List.map_cons, List.map_cons, List.intersperse_cons_cons, List.flatten_cons]; unfold Mem.bytes; rw [List.append_assoc, member_append]; exact ⟨_, rfl⟩
  have hm := parseMembers_ok (parseValue (d + 1)) (k + 1) k ms hg h0 t _ (members_length (k + 1) ms (nl k ++ 125 :: t))
  obtain ⟨l, hl⟩ := hfirst
  rw [hform]
  rw [hl] at hm ⊢
  rw [parseValue]
  simp only [if_true]
  rw [if_neg (by omega), skipWs_nl (k + 1) 34 l (by decide)]
  show (do let (ms, t) ← parseMembers (parseValue (d + 1)) (34 :: l).length (34 :: l); return (Value.obj ms, t) : M _) = _
  simp only [hm, bind, Except.bind, pure, Except.pure]

/-! ## configurations -/

/-- what a configuration is read back as -/
def cleanConfig (c : Config) : Config := { c with indexRoot := clean c.indexRoot, tokenConfig := ⟨clean c.tokenConfig.name⟩ }

def tokenMems (c : Config) : List Mem := [⟨"Name", encStr c.tokenConfig.name, .str (clean c.tokenConfig.name)⟩]

def blotMems (c : Config) : List Mem :=
  [⟨"SeqLen", encInt c.blotConfig.seqLen, .num (encInt c.blotConfig.seqLen)⟩,
   ⟨"Interleave", encInt c.blotConfig.interleave, .num (encInt c.blotConfig.interleave)⟩]

def configMems (c : Config) : List Mem :=
  [⟨"IndexRoot", encStr c.indexRoot, .str (clean c.indexRoot)⟩,
   ⟨"SeqLen", encInt c.seqLen, .num (encInt c.seqLen)⟩,
   ⟨"NumShards", encInt c.numShards, .num (encInt c.numShards)⟩,
   ⟨"NumShatters", encInt c.numShatters, .num (encInt c.numShatters)⟩,
   ⟨"DocFlushRate", encInt c.docFlushRate, .num (encInt c.docFlushRate)⟩,
   ⟨"TokenConfig", object 1 ((tokenMems c).map Mem.bytes), .obj ((tokenMems c).map Mem.pair)⟩,
   ⟨"BlotConfig", object 1 ((blotMems c).map Mem.bytes), .obj ((blotMems c).map Mem.pair)⟩]

theorem good_str (d : Nat) (k : String) (hk : clean k.toUTF8.toList = k.toUTF8.toList) (s : Bytes) :
    Mem.Good (parseValue (d + 1)) ⟨k, encStr s, .str (clean s)⟩ :=
  ⟨hk, fun t _ => parseValue_str d s t, 34, _, rfl, by decide⟩

theorem good_int (d : Nat) (k : String) (hk : clean k.toUTF8.toList = k.toUTF8.toList) (i : Int) :
    Mem.Good (parseValue (d + 1)) ⟨k, encInt i, .num (encInt i)⟩ := by
  refine ⟨hk, fun t ht => parseValue_int d i t ht, ?_⟩
  obtain ⟨b, l, hl, hb⟩ := encInt_first i
  refine ⟨b, l, hl, ?_⟩
  rcases hb with rfl | hb
  · decide
  · unfold isWs isDig at *
    simp only [Bool.and_eq_true, decide_eq_true_eq, UInt8.le_iff_toNat_le, UInt8.reduceToNat] at hb
    have h : ∀ x : UInt8, x.toNat < 48 → decide (b = x) = false := fun x hx => decide_eq_false (by rintro rfl; omega)
    rw [h 32 (by decide), h 9 (by decide), h 10 (by decide), h 13 (by decide)]
    rfl

theorem good_obj (d j : Nat) (k : String) (hk : clean k.toUTF8.toList = k.toUTF8.toList) (ms : List Mem) (hg : ∀ m ∈ ms, m.Good (parseValue (d + 1)))
    (h0 : ms ≠ []) : Mem.Good (parseValue (d + 2)) ⟨k, object j (ms.map Mem.bytes), .obj (ms.map Mem.pair)⟩ :=
  ⟨hk, fun t _ => parseValue_obj d j ms hg h0 t, 123, _, rfl, by decide⟩

theorem clean_ascii (s : Bytes) (h : s.all (· < 0x80) = true) : clean s = s := by
  refine clean_valid ((utf8Valid_iff s).mpr ?_)
  induction s with
  | nil => simp [decode_nil]
  | cons b t ih =>
    simp only [List.all_cons, Bool.and_eq_true, decide_eq_true_eq] at h
    have hr : decodeRune b t = ⟨some b.toNat, [b]⟩ := by unfold decodeRune; rw [if_pos h.1]
    rw [decode_cons, hr]
    intro r hr'
    rcases List.mem_cons.mp hr' with rfl | hr'
    · rfl
    · exact ih h.2 r hr'

theorem marshal_eq (c : Config) : marshal c = object 0 ((configMems c).map Mem.bytes) := rfl

theorem configMems_good (c : Config) : ∀ m ∈ configMems c, m.Good (parseValue 10000) := by
  intro m hm
  simp only [configMems, List.mem_cons, List.not_mem_nil, or_false] at hm
  rcases hm with rfl | rfl | rfl | rfl | rfl | rfl | rfl
  · exact good_str 9999 _ (clean_ascii _ (by decide +kernel)) _
  · exact good_int 9999 _ (clean_ascii _ (by decide +kernel)) _
  · exact good_int 9999 _ (clean_ascii _ (by decide +kernel)) _
  · exact good_int 9999 _ (clean_ascii _ (by decide +kernel)) _
  · exact good_int 9999 _ (clean_ascii _ (by decide +kernel)) _
  · refine good_obj 9998 1 _ (clean_ascii _ (by decide +kernel)) _ ?_ (by simp [tokenMems])
    intro m hm
    simp only [tokenMems, List.mem_cons, List.not_mem_nil, or_false] at hm
    subst hm
    exact good_str 9998 _ (clean_ascii _ (by decide +kernel)) _
  · refine good_obj 9998 1 _ (clean_ascii _ (by decide +kernel)) _ ?_ (by simp [blotMems])
    intro m hm
    simp only [blotMems, List.mem_cons, List.not_mem_nil, or_false] at hm
    rcases hm with rfl | rfl
    · exact good_int 9998 _ (clean_ascii _ (by decide +kernel)) _
    · exact good_int 9998 _ (clean_ascii _ (by decide +kernel)) _

/-- the text of a configuration, with anything after it -/
theorem parse_marshal (c : Config) (w : Bytes) :
    parse (marshal c ++ w) = if skipWs w = [] then .ok (.obj ((configMems c).map Mem.pair)) else bad := by
  have h := parseValue_obj 9999 0 (configMems c) (configMems_good c) (by simp [configMems]) w
  have hws : skipWs (object 0 ((configMems c).map Mem.bytes) ++ w) = object 0 ((configMems c).map Mem.bytes) ++ w :=
    skipWs_cons 123 _ (by decide)
  unfold parse
  rw [marshal_eq, hws, h]
  rfl

/-- Go's int -/
def IsInt (i : Int) : Prop := -2 ^ 63 ≤ i ∧ i < 2 ^ 63

/-- the integers of a configuration are Go ints -/
structure Ints (c : Config) : Prop where
  seqLen : IsInt c.seqLen
  numShards : IsInt c.numShards
  numShatters : IsInt c.numShatters
  docFlushRate : IsInt c.docFlushRate
  blotSeqLen : IsInt c.blotConfig.seqLen
  interleave : IsInt c.blotConfig.interleave

theorem setAll_cons {α : Type} (names : List String) (set : α → String → Value → M α) (c c' : α) (n : String) (v : Value) (ms : List (Bytes × Value))
    (hf : field names n.toUTF8.toList = some n) (hs : set c n v = .ok c') : setAll names set c ((n.toUTF8.toList, v) :: ms) = setAll names set c' ms := by
  simp only [setAll, hf, hs, bind, Except.bind]

theorem asConfig_mems (c : Config) (h : Ints c) : asStruct configNames setConfig (.obj ((configMems c).map Mem.pair)) zeroConfig = .ok (cleanConfig c) := by
  have ht : asStruct ["Name"] setToken (.obj ((tokenMems c).map Mem.pair)) zeroConfig.tokenConfig = .ok ⟨clean c.tokenConfig.name⟩ := by
    simp only [asStruct, tokenMems, List.map_cons, List.map_nil, Mem.pair]
    rw [setAll_cons _ _ _ ⟨clean c.tokenConfig.name⟩ "Name" _ _ (by decide +kernel) rfl]
    rfl
  have hb : asStruct ["SeqLen", "Interleave"] setBlot (.obj ((blotMems c).map Mem.pair)) zeroConfig.blotConfig = .ok c.blotConfig := by
    simp only [asStruct, blotMems, List.map_cons, List.map_nil, Mem.pair]
    rw [setAll_cons _ _ _ ⟨c.blotConfig.seqLen, 0⟩ "SeqLen" _ _ (by decide +kernel) (by
      simp [setBlot, asInt, parseInt_enc _ h.blotSeqLen.1 h.blotSeqLen.2, bind, Except.bind, pure, Except.pure, zeroConfig])]
    rw [setAll_cons _ _ _ ⟨c.blotConfig.seqLen, c.blotConfig.interleave⟩ "Interleave" _ _ (by decide +kernel) (by
      simp [setBlot, asInt, parseInt_enc _ h.interleave.1 h.interleave.2, bind, Except.bind, pure, Except.pure])]
    rfl
  simp only [asStruct, configMems, List.map_cons, List.map_nil, Mem.pair]
  rw [setAll_cons _ _ _ ⟨clean c.indexRoot, 0, 0, 0, 0, ⟨[]⟩, ⟨0, 0⟩⟩ "IndexRoot" _ _ (by decide +kernel) (by
    simp [setConfig, asStr, bind, Except.bind, pure, Except.pure, zeroConfig])]
  rw [setAll_cons _ _ _ ⟨clean c.indexRoot, c.seqLen, 0, 0, 0, ⟨[]⟩, ⟨0, 0⟩⟩ "SeqLen" _ _ (by decide +kernel) (by
    simp [setConfig, asInt, parseInt_enc _ h.seqLen.1 h.seqLen.2, bind, Except.bind, pure, Except.pure])]
  rw [setAll_cons _ _ _ ⟨clean c.indexRoot, c.seqLen, c.numShards, 0, 0, ⟨[]⟩, ⟨0, 0⟩⟩ "NumShards" _ _ (by decide +kernel) (by
    simp [setConfig, asInt, parseInt_enc _ h.numShards.1 h.numShards.2, bind, Except.bind, pure, Except.pure])]
  rw [setAll_cons _ _ _ ⟨clean c.indexRoot, c.seqLen, c.numShards, c.numShatters, 0, ⟨[]⟩, ⟨0, 0⟩⟩ "NumShatters" _ _ (by decide +kernel) (by
    simp [setConfig, asInt, parseInt_enc _ h.numShatters.1 h.numShatters.2, bind, Except.bind, pure, Except.pure])]
  rw [setAll_cons _ _ _ ⟨clean c.indexRoot, c.seqLen, c.numShards, c.numShatters, c.docFlushRate, ⟨[]⟩, ⟨0, 0⟩⟩ "DocFlushRate" _ _ (by decide +kernel) (by
    simp [setConfig, asInt, parseInt_enc _ h.docFlushRate.1 h.docFlushRate.2, bind, Except.bind, pure, Except.pure])]
  rw [setAll_cons _ _ _ ⟨clean c.indexRoot, c.seqLen, c.numShards, c.numShatters, c.docFlushRate, ⟨clean c.tokenConfig.name⟩, ⟨0, 0⟩⟩ "TokenConfig" _ _
    (by decide +kernel) (by
    have : asStruct ["Name"] setToken (.obj ((tokenMems c).map Mem.pair)) ⟨[]⟩ = .ok ⟨clean c.tokenConfig.name⟩ := ht
    simp [setConfig, this, bind, Except.bind, pure, Except.pure])]
  rw [setAll_cons _ _ _ (cleanConfig c) "BlotConfig" _ _ (by decide +kernel) (by
    have : asStruct ["SeqLen", "Interleave"] setBlot (.obj ((blotMems c).map Mem.pair)) ⟨0, 0⟩ = .ok c.blotConfig := hb
    simp [setConfig, this, bind, Except.bind, pure, Except.pure, cleanConfig])]
  rfl

/-- reading a configuration file with anything after the configuration -/
theorem unmarshal_marshal (c : Config) (h : Ints c) (w : Bytes) :
    unmarshal (marshal c ++ w) = if skipWs w = [] then .ok (cleanConfig c) else bad := by
  unfold unmarshal
  rw [parse_marshal]
  by_cases hw : skipWs w = []
  · rw [if_pos hw, if_pos hw]; exact asConfig_mems c h
  · rw [if_neg hw, if_neg hw]; rfl

end Dupi.Json
