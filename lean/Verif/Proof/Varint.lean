import Verif.Model.Go
/-! Lemmas about the encodings of `encoding/binary`. -/

namespace Dupi

theorem u8_lt_iff (a b : UInt8) : a < b ↔ a.toNat < b.toNat := UInt8.lt_iff_toNat_lt

theorem toNat_ofNat_small {x : Nat} (h : x < 256) : (UInt8.ofNat x).toNat = x := by
  simp [UInt8.toNat_ofNat']; omega

theorem u8_cont_toNat (x : Nat) : (UInt8.ofNat x ||| 0x80).toNat = x % 128 + 128 := by
  have h : ∀ y : Fin 256, (UInt8.ofNat y.val ||| 0x80).toNat = y.val % 128 + 128 := by decide +kernel
  have := h ⟨x % 256, Nat.mod_lt _ (by decide)⟩
  have e : UInt8.ofNat (x % 256) = UInt8.ofNat x := by
    apply UInt8.toNat_inj.mp; simp
  simp only [e] at this
  rw [this]; omega

theorem u8_and7f_toNat (b : UInt8) : (b &&& 0x7f).toNat = b.toNat % 128 := by
  rw [UInt8.toNat_and]
  exact Nat.and_two_pow_sub_one_eq_mod b.toNat 7

theorem u8_cont_and7f (x : Nat) : ((UInt8.ofNat x ||| 0x80) &&& 0x7f).toNat = x % 128 := by
  rw [u8_and7f_toNat, u8_cont_toNat]; omega

theorem u8_cont_not_lt (x : Nat) : ¬ (UInt8.ofNat x ||| 0x80) < 0x80 := by
  rw [u8_lt_iff, u8_cont_toNat]; simp

theorem or_shift (x y s : Nat) (h : x < 2 ^ s) : x ||| (y <<< s) = x + y * 2 ^ s := by
  rw [Nat.or_comm, ← Nat.shiftLeft_add_eq_or_of_lt h, Nat.shiftLeft_eq]; omega

theorem putUvarint_small {x : Nat} (h : x < 128) : putUvarint x = [UInt8.ofNat x] := by
  rw [putUvarint]; simp [h]

theorem putUvarint_big {x : Nat} (h : 128 ≤ x) :
    putUvarint x = (UInt8.ofNat x ||| 0x80) :: putUvarint (x / 128) := by
  rw [putUvarint]; simp [Nat.not_lt.mpr h, Nat.shiftRight_eq_div_pow]

theorem putUvarint_ne_nil (x : Nat) : putUvarint x ≠ [] := by
  rw [putUvarint]; split <;> simp

theorem putUvarint_length_pos (x : Nat) : 0 < (putUvarint x).length :=
  List.length_pos_iff.mpr (putUvarint_ne_nil x)

theorem putUvarint_length_le (k : Nat) : ∀ x, x < 2 ^ (7 * (k + 1)) → (putUvarint x).length ≤ k + 1 := by
  induction k with
  | zero => intro x h; rw [putUvarint_small (by simpa using h)]; simp
  | succ k ih =>
    intro x h
    by_cases hx : x < 128
    · rw [putUvarint_small hx]; simp
    · rw [putUvarint_big (by omega)]
      have : x / 128 < 2 ^ (7 * (k + 1)) := by
        rw [Nat.div_lt_iff_lt_mul (by decide)]
        calc x < 2 ^ (7 * (k + 1 + 1)) := h
          _ = 2 ^ (7 * (k + 1)) * 128 := by
            rw [show 7 * (k + 1 + 1) = 7 * (k + 1) + 7 by omega, Nat.pow_add]
      have := ih _ this
      simp; omega

theorem putUvarint_length_u32 {x : Nat} (h : x < 2 ^ 32) : (putUvarint x).length ≤ 5 :=
  putUvarint_length_le 4 x (by omega)

theorem putUvarint_length_u64 {x : Nat} (h : x < 2 ^ 64) : (putUvarint x).length ≤ 10 :=
  putUvarint_length_le 9 x (by omega)

private theorem step_bounds {x i : Nat} (hx : 128 ≤ x) (h : x * 2 ^ (7 * i) < 2 ^ 64) : i ≤ 8 := by
  have h1 : 128 * 2 ^ (7 * i) < 2 ^ 64 := Nat.lt_of_le_of_lt (Nat.mul_le_mul_right _ hx) h
  have h2 : 2 ^ (7 * i + 7) < 2 ^ 64 := by rw [Nat.pow_add]; omega
  have := (Nat.pow_lt_pow_iff_right (by decide : 1 < 2)).mp h2
  omega

private theorem step_acc {x i acc : Nat} (hacc : acc < 2 ^ (7 * i)) :
    acc + x % 128 * 2 ^ (7 * i) < 2 ^ (7 * (i + 1)) := by
  have : x % 128 * 2 ^ (7 * i) ≤ 127 * 2 ^ (7 * i) := Nat.mul_le_mul_right _ (by omega)
  rw [show 7 * (i + 1) = 7 * i + 7 by omega, Nat.pow_add]; omega

private theorem step_val {x i : Nat} :
    x % 128 * 2 ^ (7 * i) + x / 128 * 2 ^ (7 * (i + 1)) = x * 2 ^ (7 * i) := by
  rw [show 7 * (i + 1) = 7 + 7 * i by omega, Nat.pow_add, ← Nat.mul_assoc, ← Nat.add_mul]
  congr 1; omega

theorem uvarintLoop_put (x : Nat) : ∀ (i acc : Nat) (rest : Bytes), i ≤ 9 →
    x * 2 ^ (7 * i) < 2 ^ 64 → acc < 2 ^ (7 * i) →
    uvarintLoop (putUvarint x ++ rest) i acc
      = (acc + x * 2 ^ (7 * i), (i : Int) + ((putUvarint x).length : Int)) := by
  induction x using Nat.strongRecOn with
  | ind x ih =>
    intro i acc rest hi hx hacc
    by_cases h : x < 128
    · rw [putUvarint_small h]
      have hb : UInt8.ofNat x < 0x80 := by
        rw [u8_lt_iff, toNat_ofNat_small (by omega)]; exact h
      have h9 : ¬ (i = maxVarintLen64 - 1 ∧ UInt8.ofNat x > 1) := by
        rintro ⟨h9, h1⟩
        have h9 : i = 9 := h9
        subst h9
        have h1' : (1:UInt8) < UInt8.ofNat x := h1
        rw [u8_lt_iff, toNat_ofNat_small (by omega)] at h1'
        have : (1:UInt8).toNat = 1 := rfl
        omega
      have h10 : ¬ i = 10 := by omega
      simp only [List.cons_append, List.nil_append, uvarintLoop, hb, if_true, h10, if_false,
        h9, toNat_ofNat_small (show x < 256 by omega), or_shift _ _ _ hacc]
      simp
    · have h' : 128 ≤ x := by omega
      have hi8 := step_bounds h' hx
      rw [putUvarint_big h']
      have h10 : ¬ i = 10 := by omega
      simp only [List.cons_append, uvarintLoop, h10, if_false, u8_cont_not_lt x]
      rw [u8_cont_and7f, or_shift _ _ _ hacc,
        ih (x / 128) (by omega) (i + 1) _ rest (by omega) ?_ (step_acc hacc)]
      · rw [Nat.add_assoc, step_val]; simp; omega
      · have := @step_val x i
        omega

theorem uvarint_put (x : Nat) (rest : Bytes) (h : x < 2 ^ 64) :
    uvarint (putUvarint x ++ rest) = (x, ((putUvarint x).length : Int)) := by
  unfold uvarint
  rw [uvarintLoop_put x 0 0 rest (by omega) (by simpa using h) (by simp)]
  simp

theorem readUvarintLoop_put (x : Nat) : ∀ (i acc : Nat) (rest : Bytes), i ≤ 9 →
    x * 2 ^ (7 * i) < 2 ^ 64 → acc < 2 ^ (7 * i) →
    readUvarintLoop (putUvarint x ++ rest) i acc = .ok (acc + x * 2 ^ (7 * i), rest) := by
  induction x using Nat.strongRecOn with
  | ind x ih =>
    intro i acc rest hi hx hacc
    by_cases h : x < 128
    · rw [putUvarint_small h]
      have hb : UInt8.ofNat x < 0x80 := by
        rw [u8_lt_iff, toNat_ofNat_small (by omega)]; exact h
      have h9 : ¬ (i = maxVarintLen64 - 1 ∧ UInt8.ofNat x > 1) := by
        rintro ⟨h9, h1⟩
        have h9 : i = 9 := h9
        subst h9
        have h1' : (1:UInt8) < UInt8.ofNat x := h1
        rw [u8_lt_iff, toNat_ofNat_small (by omega)] at h1'
        have : (1:UInt8).toNat = 1 := rfl
        omega
      rw [readUvarintLoop.eq_def]
      have h10 : ¬ i = 10 := by omega
      simp only [List.cons_append, List.nil_append, hb, if_true, h10, if_false,
        h9, toNat_ofNat_small (show x < 256 by omega), or_shift _ _ _ hacc]
    · have h' : 128 ≤ x := by omega
      have hi8 := step_bounds h' hx
      rw [putUvarint_big h', readUvarintLoop.eq_def]
      have h10 : ¬ i = 10 := by omega
      simp only [List.cons_append, h10, if_false, u8_cont_not_lt x]
      rw [u8_cont_and7f, or_shift _ _ _ hacc,
        ih (x / 128) (by omega) (i + 1) _ rest (by omega) ?_ (step_acc hacc)]
      · rw [Nat.add_assoc, step_val]
      · have := @step_val x i
        omega

theorem readUvarint_put (x : Nat) (rest : Bytes) (h : x < 2 ^ 64) :
    readUvarint (putUvarint x ++ rest) = .ok (x, rest) := by
  unfold readUvarint
  rw [readUvarintLoop_put x 0 0 rest (by omega) (by simpa using h) (by simp)]
  simp

theorem unzigzag_zigzag (x : Int) : unzigzag (zigzag x) = x := by
  unfold unzigzag zigzag; split <;> split <;> omega

theorem zigzag_lt (x : Int) (h1 : -(2 ^ 63) ≤ x) (h2 : x < 2 ^ 63) : zigzag x < 2 ^ 64 := by
  unfold zigzag; split <;> omega

theorem varint_put (x : Int) (rest : Bytes) (h1 : -(2 ^ 63) ≤ x) (h2 : x < 2 ^ 63) :
    varint (putVarint x ++ rest) = (x, ((putVarint x).length : Int)) := by
  unfold varint putVarint
  simp only [uvarint_put _ rest (zigzag_lt x h1 h2), unzigzag_zigzag]

theorem readVarint_put (x : Int) (rest : Bytes) (h1 : -(2 ^ 63) ≤ x) (h2 : x < 2 ^ 63) :
    readVarint (putVarint x ++ rest) = .ok (x, rest) := by
  unfold readVarint putVarint
  simp [readUvarint_put _ rest (zigzag_lt x h1 h2), unzigzag_zigzag, bind, Except.bind, pure,
    Except.pure]

/-! ### strict prefixes of an encoding do not decode -/

theorem readUvarintLoop_prefix (x : Nat) : ∀ (i acc n : Nat), n < (putUvarint x).length →
    ∃ e, readUvarintLoop ((putUvarint x).take n) i acc = fail e := by
  induction x using Nat.strongRecOn with
  | ind x ih =>
    intro i acc n hn
    rw [readUvarintLoop.eq_def]
    by_cases hi : i = maxVarintLen64
    · exact ⟨.overflow, by simp [hi]⟩
    simp only [hi, if_false]
    by_cases h : x < 128
    · rw [putUvarint_small h] at hn
      have : n = 0 := by simp at hn; exact hn
      subst this; exact ⟨.eof, by simp⟩
    · rw [putUvarint_big (by omega)] at hn ⊢
      cases n with
      | zero => exact ⟨.eof, by simp⟩
      | succ n =>
        simp only [List.take_succ_cons, if_neg (u8_cont_not_lt x)]
        exact ih (x / 128) (by omega) _ _ n (by simpa using hn)

theorem readVarint_prefix (x : Int) (n : Nat) (hn : n < (putVarint x).length) :
    ∃ e, readVarint ((putVarint x).take n) = fail e := by
  obtain ⟨e, he⟩ := readUvarintLoop_prefix (zigzag x) 0 0 n hn
  refine ⟨e, ?_⟩
  simp only [readVarint, readUvarint, putVarint, he]; rfl

/-! ### big endian -/

theorem be32_length (x : UInt32) : (be32 x).length = 4 := rfl
theorem be64_length (x : UInt64) : (be64 x).length = 8 := rfl

private theorem or_shift' (x y s : Nat) (h : x < 2 ^ s) : x ||| (y * 2 ^ s) = x + y * 2 ^ s := by
  rw [← Nat.shiftLeft_eq, or_shift x y s h, Nat.shiftLeft_eq]

private theorem byteVal (x k : Nat) : x / 2 ^ k % 256 < 256 := Nat.mod_lt _ (by decide)

theorem getBE32_be32 (x : UInt32) (rest : Bytes) : getBE32 (be32 x ++ rest) = .ok x := by
  simp only [be32, getBE32, List.cons_append]
  congr 1
  apply UInt32.toNat_inj.mp
  have hx := x.toNat_lt
  simp only [UInt32.toNat_or, UInt32.toNat_shiftLeft, UInt8.toNat_toUInt32, UInt32.toNat_toUInt8,
    UInt32.toNat_shiftRight, UInt32.reduceToNat, Nat.reduceMod, Nat.shiftRight_eq_div_pow,
    Nat.shiftLeft_eq]
  rw [Nat.mod_eq_of_lt (a := _ * 2 ^ 8) (by omega), Nat.mod_eq_of_lt (a := _ * 2 ^ 16) (by omega),
    Nat.mod_eq_of_lt (a := _ * 2 ^ 24) (by omega), or_shift' _ _ 8 (by omega),
    or_shift' _ _ 16 (by omega), or_shift' _ _ 24 (by omega)]
  omega

theorem getBE64_be64 (x : UInt64) (rest : Bytes) : getBE64 (be64 x ++ rest) = .ok x := by
  simp only [be64, getBE64, List.cons_append]
  congr 1
  apply UInt64.toNat_inj.mp
  have hx := x.toNat_lt
  simp only [UInt64.toNat_or, UInt64.toNat_shiftLeft, UInt8.toNat_toUInt64, UInt64.toNat_toUInt8,
    UInt64.toNat_shiftRight, UInt64.reduceToNat, Nat.reduceMod, Nat.shiftRight_eq_div_pow,
    Nat.shiftLeft_eq]
  rw [Nat.mod_eq_of_lt (a := _ * 2 ^ 8) (by omega), Nat.mod_eq_of_lt (a := _ * 2 ^ 16) (by omega),
    Nat.mod_eq_of_lt (a := _ * 2 ^ 24) (by omega), Nat.mod_eq_of_lt (a := _ * 2 ^ 32) (by omega),
    Nat.mod_eq_of_lt (a := _ * 2 ^ 40) (by omega), Nat.mod_eq_of_lt (a := _ * 2 ^ 48) (by omega),
    Nat.mod_eq_of_lt (a := _ * 2 ^ 56) (by omega), or_shift' _ _ 8 (by omega),
    or_shift' _ _ 16 (by omega), or_shift' _ _ 24 (by omega), or_shift' _ _ 32 (by omega),
    or_shift' _ _ 40 (by omega), or_shift' _ _ 48 (by omega), or_shift' _ _ 56 (by omega)]
  omega

theorem u64ToI64_i64ToU64 (x : Int) (h1 : -(2 ^ 63) ≤ x) (h2 : x < 2 ^ 63) :
    u64ToI64 (i64ToU64 x) = x := by
  unfold u64ToI64 i64ToU64
  rw [UInt64.toNat_ofNat']
  have h := Int.emod_nonneg x (show (2 ^ 64 : Int) ≠ 0 by decide)
  have h' := Int.emod_lt_of_pos x (show (0 : Int) < 2 ^ 64 by decide)
  have : (x % 2 ^ 64).toNat % 2 ^ 64 = (x % 2 ^ 64).toNat := by omega
  rw [this]
  split <;> omega

end Dupi
