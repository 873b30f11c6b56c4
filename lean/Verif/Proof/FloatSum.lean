import Verif.Proof.Float
import Mathlib.Algebra.Order.Ring.Pow
import Mathlib.Algebra.BigOperators.Group.List.Basic
import Mathlib.Tactic.NormNum
/-! # Sums of squares in float64 -/

namespace Dupi.Fl

/-- `y` is `x` up to `k` roundings; both are nonnegative -/
structure Near (k : ℕ) (x y : ℝ) : Prop where
  pos : 0 ≤ x
  lower : (1 - eps) ^ k * x ≤ y
  upper : (1 - eps) ^ k * y ≤ x

theorem r_pos : 0 < 1 - eps := by have := eps_lt; linarith
theorem r_le : 1 - eps ≤ 1 := by have := eps_pos; linarith
theorem rk_pos (k : ℕ) : 0 < (1 - eps) ^ k := pow_pos r_pos k
theorem rk_le (k : ℕ) : (1 - eps) ^ k ≤ 1 := pow_le_one₀ r_pos.le r_le

theorem rk_bern (k : ℕ) : 1 - k * eps ≤ (1 - eps) ^ k := by
  have := one_add_mul_le_pow (show (-2 : ℝ) ≤ -eps by have := eps_lt; linarith) k
  rw [show 1 - k * eps = 1 + k * -eps by ring, show 1 - eps = 1 + -eps by ring]
  exact this

theorem rk_half {k : ℕ} (h : k ≤ 2 ^ 52) : 1 / 2 ≤ (1 - eps) ^ k := by
  refine le_trans ?_ (rk_bern k)
  have : (k : ℝ) ≤ 2 ^ 52 := by exact_mod_cast h
  have : k * eps ≤ 2 ^ 52 * eps := by have := eps_pos; gcongr
  have : (2 : ℝ) ^ 52 * eps = 1 / 2 := by unfold eps; norm_num
  linarith

namespace Near

theorem refl {x : ℝ} (h : 0 ≤ x) : Near 0 x x := ⟨h, by simp, by simp⟩

theorem pos' {k : ℕ} {x y : ℝ} (h : Near k x y) : 0 ≤ y := le_trans (mul_nonneg (rk_pos k).le h.pos) h.lower

theorem mono {k l : ℕ} {x y : ℝ} (h : Near k x y) (hl : k ≤ l) : Near l x y := by
  have hp : (1 - eps) ^ l ≤ (1 - eps) ^ k := pow_le_pow_of_le_one r_pos.le r_le hl
  refine ⟨h.pos, le_trans (mul_le_mul_of_nonneg_right hp h.pos) h.lower, le_trans (mul_le_mul_of_nonneg_right hp h.pos') h.upper⟩

theorem zero {k : ℕ} {y : ℝ} (h : Near k 0 y) : y = 0 := by
  have h1 := h.upper
  have h2 := h.pos'
  rcases h2.eq_or_lt with h3 | h3
  · exact h3.symm
  · have := mul_pos (rk_pos k) h3; linarith

theorem zero' (k : ℕ) : Near k 0 0 := ⟨le_rfl, by simp, by simp⟩

theorem add {k : ℕ} {x y x' y' : ℝ} (h : Near k x y) (h' : Near k x' y') : Near k (x + x') (y + y') :=
  ⟨add_nonneg h.pos h'.pos, by rw [mul_add]; exact add_le_add h.lower h'.lower, by rw [mul_add]; exact add_le_add h.upper h'.upper⟩

theorem div {k : ℕ} {x y b : ℝ} (h : Near k x y) (hb : 0 < b) : Near k (x / b) (y / b) := by
  refine ⟨div_nonneg h.pos hb.le, ?_, ?_⟩
  · rw [mul_div_assoc']; gcongr; exact h.lower
  · rw [mul_div_assoc']; gcongr; exact h.upper

theorem sqrt {k : ℕ} {x y : ℝ} (h : Near k x y) : Near k (√x) (√y) := by
  have key {a b : ℝ} (ha : 0 ≤ a) (hab : (1 - eps) ^ k * a ≤ b) : (1 - eps) ^ k * √a ≤ √b := by
    have h0 := (rk_pos k).le
    apply Real.le_sqrt_of_sq_le
    rw [mul_pow, Real.sq_sqrt ha]
    refine le_trans ?_ hab
    have : ((1 - eps) ^ k) ^ 2 ≤ (1 - eps) ^ k := by
      rw [sq]; exact mul_le_of_le_one_left h0 (rk_le k)
    gcongr
  exact ⟨Real.sqrt_nonneg _, key h.pos h.lower, key h.pos' h.upper⟩

theorem round {k : ℕ} {x y : ℝ} (h : Near k x y) (hn : Normal y) : ∃ z, Fl.round y = some z ∧ Near (k + 1) x z := by
  obtain ⟨z, hz, he⟩ := round_err hn
  refine ⟨z, hz, h.pos, ?_, ?_⟩
  all_goals
    have hy := h.pos'
    rw [abs_of_nonneg hy, abs_le] at he
  · rw [pow_succ', mul_assoc]
    have h1 : (1 - eps) * ((1 - eps) ^ k * x) ≤ (1 - eps) * y := mul_le_mul_of_nonneg_left h.lower r_pos.le
    linarith [he.1]
  · rw [pow_succ, mul_assoc]
    refine le_trans (mul_le_mul_of_nonneg_left ?_ (rk_pos k).le) h.upper
    have h1 : (1 - eps) * z ≤ (1 - eps) * ((1 + eps) * y) := mul_le_mul_of_nonneg_left (by linarith [he.2]) r_pos.le
    have h2 : (1 - eps) * ((1 + eps) * y) = y - eps ^ 2 * y := by ring
    have : 0 ≤ eps ^ 2 * y := by positivity
    linarith

/-- the square of a rounded number -/
theorem square {v d : ℝ} (h : |d - v| ≤ eps * |v|) : Near 2 (v * v) (d * d) := by
  have h1 := abs_sub_abs_le_abs_sub d v
  have h2 := abs_sub_abs_le_abs_sub v d
  rw [abs_sub_comm v d] at h2
  have hv := abs_nonneg v
  have hd := abs_nonneg d
  have lo : (1 - eps) * |v| ≤ |d| := by linarith
  have hi : (1 - eps) * |d| ≤ |v| := by
    have h3 : (1 - eps) * |d| ≤ (1 - eps) * ((1 + eps) * |v|) := mul_le_mul_of_nonneg_left (by linarith) r_pos.le
    have h4 : (1 - eps) * ((1 + eps) * |v|) = |v| - eps ^ 2 * |v| := by ring
    have : 0 ≤ eps ^ 2 * |v| := by positivity
    linarith
  have e1 : v * v = |v| * |v| := (abs_mul_abs_self v).symm
  have e2 : d * d = |d| * |d| := (abs_mul_abs_self d).symm
  have hr := r_pos.le
  refine ⟨mul_self_nonneg v, ?_, ?_⟩
  · rw [e1, e2, show (1 - eps) ^ 2 * (|v| * |v|) = ((1 - eps) * |v|) * ((1 - eps) * |v|) by ring]
    exact mul_self_le_mul_self (by positivity) lo
  · rw [e1, e2, show (1 - eps) ^ 2 * (|d| * |d|) = ((1 - eps) * |d|) * ((1 - eps) * |d|) by ring]
    exact mul_self_le_mul_self (by positivity) hi

end Near

/-- numbers far from the limits of the exponent -/
def Mid (x : ℝ) : Prop := x = 0 ∨ ((1 / 2) ^ 500 ≤ x ∧ x ≤ 2 ^ 500)

theorem normal_of_bounds {y : ℝ} (h : y = 0 ∨ ((1 / 2) ^ 502 ≤ |y| ∧ |y| ≤ 2 ^ 502)) : Normal y := by
  rcases h with h | ⟨h1, h2⟩
  · exact .inl h
  · right
    constructor
    · refine le_trans ?_ h1
      rw [show (-1022 : ℤ) = -((1022 : ℕ) : ℤ) by norm_num, zpow_neg, zpow_natCast, one_div, inv_pow]
      apply inv_anti₀ (by positivity)
      exact pow_le_pow_right₀ (by norm_num) (by norm_num)
    · exact h2.trans (pow_le_pow_right₀ (by norm_num) (by norm_num))

theorem Near.normal {k : ℕ} {x y : ℝ} (h : Near k x y) (hk : k ≤ 2 ^ 52) (hx : Mid x) : Normal y := by
  rcases hx with rfl | ⟨h1, h2⟩
  · exact .inl h.zero
  · apply normal_of_bounds
    right
    have hp := h.pos'
    have hr := rk_half hk
    have h3 := h.lower
    have h4 := h.upper
    have h5 : 1 / 2 * x ≤ (1 - eps) ^ k * x := mul_le_mul_of_nonneg_right hr h.pos
    have h6 : 1 / 2 * y ≤ (1 - eps) ^ k * y := mul_le_mul_of_nonneg_right hr hp
    rw [abs_of_nonneg hp]
    have e1 : ((1 : ℝ) / 2) ^ 502 = (1 / 2) ^ 500 * (1 / 4) := by rw [show (502 : ℕ) = 500 + 2 by norm_num, pow_add]; norm_num
    have e2 : (2 : ℝ) ^ 502 = 2 ^ 500 * 4 := by rw [show (502 : ℕ) = 500 + 2 by norm_num, pow_add]; norm_num
    have p1 : (0 : ℝ) < (1 / 2) ^ 500 := pow_pos (by norm_num) _
    have p2 : (0 : ℝ) < 2 ^ 500 := pow_pos (by norm_num) _
    rw [e1, e2]
    have h7 := h5.trans h3
    have h8 := h6.trans h4
    clear e1 e2 hr h3 h4 h5 h6 h hk
    generalize ((1 : ℝ) / 2) ^ 500 = a at h1 p1 ⊢
    generalize (2 : ℝ) ^ 500 = b at h2 p2 ⊢
    constructor <;> linarith

/-- a multiple of 2^-200 -/
def Grid (x : ℝ) : Prop := ∃ k : ℤ, x = k * (1 / 2) ^ 200

theorem Grid.small {x : ℝ} (h : Grid x) (h0 : x ≠ 0) : (1 / 2) ^ 200 ≤ |x| := by
  obtain ⟨k, rfl⟩ := h
  have hk : k ≠ 0 := by rintro rfl; simp at h0
  have : (1 : ℝ) ≤ |(k : ℝ)| := by exact_mod_cast Int.one_le_abs hk
  rw [abs_mul, abs_of_pos (show (0 : ℝ) < (1 / 2) ^ 200 from pow_pos (by norm_num) _)]
  exact le_mul_of_one_le_left (pow_nonneg (by norm_num) _) this

theorem Grid.nat (n : ℕ) : Grid n := ⟨n * 2 ^ 200, by
  have h : (2 : ℝ) ^ 200 * (1 / 2) ^ 200 = 1 := by rw [← mul_pow]; norm_num
  simp only [Int.cast_mul, Int.cast_pow, Int.cast_natCast, Int.cast_ofNat]
  rw [mul_assoc, h, mul_one]⟩

theorem Grid.sub {x y : ℝ} (hx : Grid x) (hy : Grid y) : Grid (x - y) := by
  obtain ⟨k, rfl⟩ := hx
  obtain ⟨l, rfl⟩ := hy
  exact ⟨k - l, by push_cast; ring⟩

/-- a rounded number that is not too small -/
theorem grid_round {x y : ℝ} (h : round x = some y) (hx : x = 0 ∨ (1 / 2) ^ 140 ≤ |x|) : Grid y := by
  rcases hx with rfl | hx
  · rw [round_zero] at h
    injection h with h
    exact ⟨0, by simp [← h]⟩
  · have hpos : 0 < |x| := lt_of_lt_of_le (by positivity) hx
    have hlog : -140 ≤ Int.log 2 |x| := (Int.zpow_le_iff_le_log (by norm_num) hpos).mp (by
      rw [zpow_neg]
      rw [one_div, inv_pow] at hx
      exact_mod_cast hx)
    have he : ulpExp x = Int.log 2 |x| - 52 := max_eq_left (by omega)
    unfold round at h
    split at h
    · injection h with h
      refine ⟨rint (x / 2 ^ ulpExp x) * 2 ^ (ulpExp x + 200).toNat, ?_⟩
      rw [← h]
      push_cast
      rw [mul_assoc]
      congr 1
      rw [← zpow_natCast, Int.toNat_of_nonneg (by omega), zpow_add₀ (by norm_num), one_div, inv_pow]
      rw [show (2 : ℝ) ^ (200 : ℤ) = 2 ^ (200 : ℕ) from by exact_mod_cast zpow_natCast (2 : ℝ) 200]
      have : (2 : ℝ) ^ (200 : ℕ) ≠ 0 := by positivity
      field_simp
    · cases h

end Dupi.Fl
