import Verif.Model.Stats
import Verif.Spec.Moments
import Mathlib.Tactic.Linarith
import Mathlib.Tactic.Positivity
import Mathlib.Tactic.FieldSimp
import Mathlib.Tactic.Ring
import Mathlib.Algebra.Order.Field.Power
/-! # Errors of float64 operations -/

namespace Dupi.Fl

/-- the relative error of an operation -/
noncomputable def eps : ℝ := 1 / 2 ^ 53

theorem eps_pos : 0 < eps := by unfold eps; positivity
theorem eps_lt : eps < 1 / 2 := by unfold eps; norm_num

theorem rint_err (x : ℝ) : |(rint x : ℝ) - x| ≤ 1 / 2 := by
  have h1 := Int.floor_add_fract x
  have h2 := Int.fract_nonneg x
  have h3 := Int.fract_lt_one x
  unfold rint
  rw [abs_le]
  split
  · constructor <;> linarith
  · split
    · push_cast; constructor <;> linarith
    · split
      · constructor <;> linarith
      · push_cast; constructor <;> linarith

theorem rint_int (k : ℤ) : rint (k : ℝ) = k := by
  unfold rint
  rw [if_pos (by simp)]
  simp

/-- in the range of normal numbers -/
def Normal (x : ℝ) : Prop := x = 0 ∨ ((2 : ℝ) ^ (-1022 : ℤ) ≤ |x| ∧ |x| ≤ 2 ^ (1023 : ℕ))

theorem round_zero : round 0 = some 0 := by
  unfold round
  have h : rint ((0 : ℝ) / 2 ^ ulpExp 0) = 0 := by
    rw [zero_div]; exact_mod_cast rint_int 0
  rw [h]
  simp

theorem round_err {x : ℝ} (h : Normal x) : ∃ y, round x = some y ∧ |y - x| ≤ eps * |x| := by
  rcases h with rfl | ⟨h1, h2⟩
  · exact ⟨0, round_zero, by simp⟩
  · have hpos : 0 < |x| := lt_of_lt_of_le (by positivity) h1
    have hl := Int.zpow_log_le_self (b := 2) (by norm_num) hpos
    have hlog : -1022 ≤ Int.log 2 |x| := (Int.zpow_le_iff_le_log (by norm_num) hpos).mp (by exact_mod_cast h1)
    have he : ulpExp x = Int.log 2 |x| - 52 := by
      unfold ulpExp
      exact max_eq_left (by omega)
    have hu : (0 : ℝ) < 2 ^ ulpExp x := by positivity
    have herr : |(rint (x / 2 ^ ulpExp x) : ℝ) * 2 ^ ulpExp x - x| ≤ eps * |x| := by
      have h3 := rint_err (x / 2 ^ ulpExp x)
      have h4 : (rint (x / 2 ^ ulpExp x) : ℝ) * 2 ^ ulpExp x - x = ((rint (x / 2 ^ ulpExp x) : ℝ) - x / 2 ^ ulpExp x) * 2 ^ ulpExp x := by
        field_simp
      rw [h4, abs_mul, abs_of_pos hu]
      have h5 : (2 : ℝ) ^ ulpExp x = 2 * (eps * 2 ^ Int.log 2 |x|) := by
        rw [he, zpow_sub₀ (by norm_num)]
        unfold eps
        norm_num
        ring
      calc _ ≤ 1 / 2 * (2 : ℝ) ^ ulpExp x := by gcongr
        _ = eps * 2 ^ Int.log 2 |x| := by rw [h5]; ring
        _ ≤ eps * |x| := by
          have : ((2 : ℕ) : ℝ) ^ Int.log 2 |x| ≤ |x| := hl
          have := eps_pos
          gcongr
          simpa using hl
    refine ⟨_, if_pos ?_, herr⟩
    have h6 := abs_sub_abs_le_abs_sub ((rint (x / 2 ^ ulpExp x) : ℝ) * 2 ^ ulpExp x) x
    have h7 : eps * |x| ≤ 1 / 2 * |x| := by have := eps_lt; gcongr
    have h8 : (2 : ℝ) ^ (1024 : ℕ) = 2 ^ (1023 : ℕ) * 2 := pow_succ 2 1023
    rw [h8]
    have : (0 : ℝ) < 2 ^ (1023 : ℕ) := pow_pos (by norm_num) _
    generalize (2 : ℝ) ^ (1023 : ℕ) = big at h2 this ⊢
    clear h1 h8 hl hlog he
    generalize |(rint (x / 2 ^ ulpExp x) : ℝ) * 2 ^ ulpExp x - x| = w at herr h6
    generalize |(rint (x / 2 ^ ulpExp x) : ℝ) * 2 ^ ulpExp x| = w' at h6 ⊢
    linarith

/-- Below the normal numbers the error is absolute: it is at most half of the smallest float64. -/
theorem round_any {x : ℝ} (h : |x| ≤ 2 ^ (1023 : ℕ)) : ∃ y, round x = some y ∧ |y - x| ≤ eps * |x| + (1 / 2) ^ 1000 := by
  have tp : (0 : ℝ) < (1 / 2) ^ 1000 := pow_pos (by norm_num) _
  by_cases hn : Normal x
  · obtain ⟨y, h1, h2⟩ := round_err hn
    exact ⟨y, h1, by linarith⟩
  · have hx0 : x ≠ 0 := fun e => hn (.inl e)
    have hlt : |x| < (2 : ℝ) ^ (-1022 : ℤ) := by
      by_contra hc
      exact hn (.inr ⟨not_lt.mp hc, h⟩)
    have hpos : 0 < |x| := abs_pos.mpr hx0
    have hlog : Int.log 2 |x| < -1022 := (Int.lt_zpow_iff_log_lt (by norm_num) hpos).mp (by exact_mod_cast hlt)
    have he : ulpExp x = -1074 := by unfold ulpExp; exact max_eq_right (by omega)
    have h3 := rint_err (x / 2 ^ ulpExp x)
    have hu : (0 : ℝ) < 2 ^ ulpExp x := by positivity
    have herr : |(rint (x / 2 ^ ulpExp x) : ℝ) * 2 ^ ulpExp x - x| ≤ (1 / 2) ^ 1000 := by
      have h4 : (rint (x / 2 ^ ulpExp x) : ℝ) * 2 ^ ulpExp x - x = ((rint (x / 2 ^ ulpExp x) : ℝ) - x / 2 ^ ulpExp x) * 2 ^ ulpExp x := by
        field_simp
      rw [h4, abs_mul, abs_of_pos hu]
      calc _ ≤ 1 / 2 * (2 : ℝ) ^ ulpExp x := by gcongr
        _ ≤ 1 * (2 : ℝ) ^ (-1000 : ℤ) := by
          rw [he]
          have : (2 : ℝ) ^ (-1074 : ℤ) ≤ 2 ^ (-1000 : ℤ) := zpow_le_zpow_right₀ (by norm_num) (by norm_num)
          gcongr
          norm_num
        _ = (1 / 2) ^ 1000 := by rw [one_mul, zpow_neg, one_div, inv_pow]; rfl
    have hb : ((1 : ℝ) / 2) ^ 1000 ≤ 1 := pow_le_one₀ (by norm_num) (by norm_num)
    have hx1 : |x| ≤ 1 := by
      refine hlt.le.trans ?_
      exact zpow_le_one_of_nonpos₀ (by norm_num) (by norm_num)
    have hbig : (2 : ℝ) < 2 ^ 1024 := by
      calc (2 : ℝ) = 2 ^ 1 := by norm_num
        _ < 2 ^ 1024 := pow_lt_pow_right₀ (by norm_num) (by norm_num)
    refine ⟨_, if_pos ?_, herr.trans ?_⟩
    · have h6 := abs_sub_abs_le_abs_sub ((rint (x / 2 ^ ulpExp x) : ℝ) * 2 ^ ulpExp x) x
      generalize (2 : ℝ) ^ 1024 = big at *
      generalize ((1 : ℝ) / 2) ^ 1000 = t at *
      linarith
    · have := mul_nonneg eps_pos.le hpos.le
      linarith

theorem round_exact (k e : ℤ) (hk : |k| < 2 ^ 53) (he : -1074 ≤ e) (hb : |(k : ℝ) * 2 ^ e| < 2 ^ 1024) : round ((k : ℝ) * 2 ^ e) = some ((k : ℝ) * 2 ^ e) := by
  by_cases h0 : k = 0
  · subst h0; simpa using round_zero
  · have hx : 0 < |(k : ℝ) * 2 ^ e| := by
      rw [abs_pos]
      have : (k : ℝ) ≠ 0 := by exact_mod_cast h0
      positivity
    have hle : ulpExp ((k : ℝ) * 2 ^ e) ≤ e := by
      unfold ulpExp
      apply max_le _ he
      have : Int.log 2 |(k : ℝ) * 2 ^ e| < 53 + e := by
        rw [← Int.lt_zpow_iff_log_lt (by norm_num) hx, abs_mul, abs_of_pos (show (0 : ℝ) < 2 ^ e by positivity)]
        push_cast
        rw [zpow_add₀ (by norm_num)]
        have : |(k : ℝ)| < 2 ^ (53 : ℤ) := by
          have : ((|k| : ℤ) : ℝ) < ((2 ^ 53 : ℤ) : ℝ) := by exact_mod_cast hk
          rw [Int.cast_abs] at this
          norm_num at this ⊢
          exact this
        gcongr
      omega
    have hi : (k : ℝ) * 2 ^ e / 2 ^ ulpExp ((k : ℝ) * 2 ^ e) = ((k * 2 ^ (e - ulpExp ((k : ℝ) * 2 ^ e)).toNat : ℤ) : ℝ) := by
      generalize ulpExp ((k : ℝ) * 2 ^ e) = v at hle
      push_cast
      rw [← zpow_natCast, Int.toNat_of_nonneg (by omega), zpow_sub₀ (by norm_num)]
      ring
    have hr : (rint ((k : ℝ) * 2 ^ e / 2 ^ ulpExp ((k : ℝ) * 2 ^ e)) : ℝ) * 2 ^ ulpExp ((k : ℝ) * 2 ^ e) = k * 2 ^ e := by
      rw [hi, rint_int, ← hi]
      field_simp
    unfold round
    rw [hr, if_pos hb]

theorem ofNat_exact (n : Nat) (h : n < 2 ^ 53) : ofNat n = some (n : ℝ) := by
  have := round_exact n 0 (by rw [abs_of_nonneg (by omega)]; exact_mod_cast h) (by norm_num) (by
    rw [zpow_zero, mul_one, abs_of_nonneg (by positivity)]
    have : ((n : ℤ) : ℝ) < 2 ^ 53 := by exact_mod_cast h
    refine this.trans ?_
    gcongr <;> norm_num)
  simpa [ofNat] using this

/-! ## `round` gives the nearest float64 -/

theorem rint_nearest (x : ℝ) (k : ℤ) : |(rint x : ℝ) - x| ≤ |(k : ℝ) - x| := by
  have h1 := Int.floor_add_fract x
  have h2 := Int.fract_nonneg x
  have h3 := Int.fract_lt_one x
  have key : (k : ℝ) ≤ ⌊x⌋ ∨ (⌊x⌋ : ℝ) + 1 ≤ k := by
    rcases le_or_gt k ⌊x⌋ with h | h
    · left; exact_mod_cast h
    · right; exact_mod_cast h
  have hd : min (Int.fract x) (1 - Int.fract x) ≤ |(k : ℝ) - x| := by
    rcases key with h | h
    · refine le_trans (min_le_left _ _) ?_
      rw [abs_sub_comm]
      exact le_trans (by linarith) (le_abs_self _)
    · exact le_trans (min_le_right _ _) (le_trans (by linarith) (le_abs_self _))
  refine le_trans ?_ hd
  unfold rint
  rw [abs_le, le_min_iff]
  split
  · rw [neg_le]
    constructor
    · rw [le_min_iff]; constructor <;> linarith
    · constructor <;> linarith
  · rw [neg_le]
    split
    · push_cast
      constructor
      · rw [le_min_iff]; constructor <;> linarith
      · constructor <;> linarith
    · split
      · constructor
        · rw [le_min_iff]; constructor <;> linarith
        · constructor <;> linarith
      · push_cast
        constructor
        · rw [le_min_iff]; constructor <;> linarith
        · constructor <;> linarith

/-- the nearest float64 if there were no largest one -/
noncomputable def near (x : ℝ) : ℝ := rint (x / 2 ^ ulpExp x) * 2 ^ ulpExp x

open Classical in
theorem round_eq (x : ℝ) : round x = if |near x| < 2 ^ 1024 then some (near x) else none := by unfold round near; rfl

theorem near_of_round {x y : ℝ} (h : round x = some y) : y = near x := by
  rw [round_eq] at h
  split at h
  · injection h with h; exact h.symm
  · cases h

theorem near_zero : near 0 = 0 := (near_of_round round_zero).symm

theorem near_is64 (x : ℝ) : Spec.Is64 (near x) := by
  refine ⟨rint (x / 2 ^ ulpExp x), ulpExp x, ?_, le_max_right _ _, rfl⟩
  by_cases hx0 : x = 0
  · subst hx0
    rw [zero_div, show rint 0 = 0 by exact_mod_cast rint_int 0]
    norm_num
  have hx : 0 < |x| := abs_pos.mpr hx0
  have hl : |x| < (2 : ℝ) ^ (Int.log 2 |x| + 1) := by simpa using Int.lt_zpow_succ_log_self (b := 2) (by norm_num) |x|
  have hu : (0 : ℝ) < 2 ^ ulpExp x := by positivity
  have h1 : |x / 2 ^ ulpExp x| < 2 ^ 53 := by
    rw [abs_div, abs_of_pos hu, div_lt_iff₀ hu]
    refine hl.trans_le ?_
    rw [show (2 : ℝ) ^ 53 = 2 ^ (53 : ℤ) by norm_num, ← zpow_add₀ (by norm_num)]
    exact zpow_le_zpow_right₀ (by norm_num) (by unfold ulpExp; omega)
  have h2 := rint_err (x / 2 ^ ulpExp x)
  have h3 : |(rint (x / 2 ^ ulpExp x) : ℝ)| < 2 ^ 53 + 1 := by
    rw [abs_lt] at h1 ⊢
    rw [abs_le] at h2
    constructor <;> linarith
  have h4 : |rint (x / 2 ^ ulpExp x)| < 2 ^ 53 + 1 := by exact_mod_cast h3
  omega

/-- A rounded number is a float64. -/
theorem round_is64 {x y : ℝ} (h : round x = some y) : Spec.Is64 y := near_of_round h ▸ near_is64 x

theorem near_nearest (x z : ℝ) (hz : Spec.Is64 z) : |near x - x| ≤ |z - x| := by
  by_cases hx0 : x = 0
  · subst hx0
    rw [near_zero]
    simp
  have hx : 0 < |x| := abs_pos.mpr hx0
  unfold near
  have hu : (0 : ℝ) < 2 ^ ulpExp x := by positivity
  -- multiples of the unit in the last place
  have grid : ∀ k : ℤ, |(rint (x / 2 ^ ulpExp x) : ℝ) * 2 ^ ulpExp x - x| ≤ |(k : ℝ) * 2 ^ ulpExp x - x| := by
    intro k
    have h1 := rint_nearest (x / 2 ^ ulpExp x) k
    have e : ∀ a : ℝ, a * 2 ^ ulpExp x - x = (a - x / 2 ^ ulpExp x) * 2 ^ ulpExp x := by intro a; field_simp
    rw [e, e, abs_mul, abs_mul]
    exact mul_le_mul_of_nonneg_right h1 (abs_nonneg _)
  obtain ⟨k, e, hk, he, rfl⟩ := hz
  rcases le_or_gt (ulpExp x) e with hle | hlt
  · obtain ⟨n, hn⟩ := Int.eq_ofNat_of_zero_le (show 0 ≤ e - ulpExp x by omega)
    have := grid (k * 2 ^ n)
    have e2 : ((k * 2 ^ n : ℤ) : ℝ) * 2 ^ ulpExp x = k * 2 ^ e := by
      push_cast
      rw [mul_assoc, ← zpow_natCast, ← zpow_add₀ (by norm_num)]
      congr 2
      omega
    rw [e2] at this
    exact this
  · -- `z` has a smaller exponent: it is no larger than a power of two which is no larger than `x`
    have hE : ulpExp x = Int.log 2 |x| - 52 := by unfold ulpExp at hlt ⊢; omega
    have hl : (2 : ℝ) ^ Int.log 2 |x| ≤ |x| := by simpa using Int.zpow_log_le_self (b := 2) (by norm_num) hx
    have hp : (2 : ℝ) ^ Int.log 2 |x| = ((2 ^ 52 : ℤ) : ℝ) * 2 ^ ulpExp x := by
      rw [show ((2 ^ 52 : ℤ) : ℝ) = 2 ^ (52 : ℤ) by norm_num, ← zpow_add₀ (by norm_num)]
      congr 1
      omega
    have hz : |(k : ℝ) * 2 ^ e| ≤ 2 ^ Int.log 2 |x| := by
      rw [abs_mul, abs_of_pos (by positivity : (0 : ℝ) < 2 ^ e)]
      have hk' : |(k : ℝ)| ≤ 2 ^ (53 : ℤ) := by exact_mod_cast hk
      calc |(k : ℝ)| * 2 ^ e ≤ 2 ^ (53 : ℤ) * 2 ^ e := by gcongr
        _ = 2 ^ (53 + e) := by rw [zpow_add₀ (by norm_num)]
        _ ≤ 2 ^ Int.log 2 |x| := zpow_le_zpow_right₀ (by norm_num) (by omega)
    have hmain : |(k : ℝ) * 2 ^ e - x| ≥ |x| - 2 ^ Int.log 2 |x| := by
      have := abs_sub_abs_le_abs_sub x ((k : ℝ) * 2 ^ e)
      rw [abs_sub_comm]
      linarith
    rcases le_or_gt 0 x with hs | hs
    · refine le_trans (grid (2 ^ 52)) ?_
      rw [← hp]
      rw [abs_of_nonneg hs] at hmain hl ⊢
      rw [abs_sub_comm, abs_of_nonneg (by linarith)]
      exact hmain
    · refine le_trans (grid (-(2 ^ 52))) ?_
      have e3 : ((-(2 ^ 52) : ℤ) : ℝ) * 2 ^ ulpExp x = -((2 : ℝ) ^ Int.log 2 |x|) := by rw [hp]; push_cast; ring
      rw [e3]
      rw [abs_of_neg hs] at hmain hl ⊢
      rw [abs_of_nonneg (by linarith)]
      linarith

/-- No float64 is closer to the number. -/
theorem round_nearest {x y : ℝ} (h : round x = some y) (z : ℝ) (hz : Spec.Is64 z) : |y - x| ≤ |z - x| := near_of_round h ▸ near_nearest x z hz

theorem near_mono {x y : ℝ} (h : x ≤ y) : near x ≤ near y := by
  by_contra hc
  rw [not_le] at hc
  have h1 := near_nearest x (near y) (near_is64 y)
  have h2 := near_nearest y (near x) (near_is64 x)
  have hxy : x ≠ y := by rintro rfl; exact lt_irrefl _ hc
  have hlt := lt_of_le_of_ne h hxy
  rw [abs_le] at h1 h2
  rcases abs_cases (near y - x) with ⟨g1, _⟩ | ⟨g1, _⟩ <;> rcases abs_cases (near x - y) with ⟨g2, _⟩ | ⟨g2, _⟩ <;> rw [g1] at h1 <;> rw [g2] at h2 <;> linarith

/-- Rounding is monotone. -/
theorem round_mono {x y a b : ℝ} (h : x ≤ y) (ha : round x = some a) (hb : round y = some b) : a ≤ b := by
  rw [near_of_round ha, near_of_round hb]; exact near_mono h

end Dupi.Fl
