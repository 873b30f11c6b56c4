import Verif.Spec.Moments
import Verif.Proof.FloatStats
import Mathlib.Data.List.Perm.Basic
import Mathlib.Tactic.Ring
import Mathlib.Tactic.FieldSimp
/-! # Moments of the sizes of the buckets of an index -/

namespace Dupi

open Fl Spec

/-- squared differences from some number -/
theorem sum_sq_shift (l : List ℕ) (a : ℝ) (μ : ℝ) : (l.map fun n : ℕ => (a - n) * (a - n)).sum =
    (l.map fun n : ℕ => ((n : ℝ) - μ) ^ 2).sum + l.length * (a - μ) ^ 2 + 2 * (a - μ) * (l.length * μ - (l.sum : ℕ)) := by
  induction l with
  | nil => simp
  | cons n l ih =>
    simp only [List.map_cons, List.sum_cons, List.length_cons, ih]
    push_cast
    ring

theorem var_shift (l : List ℕ) (h : l ≠ []) (a : ℝ) : (l.map fun n : ℕ => (a - n) * (a - n)).sum / l.length =
    (l.map fun n : ℕ => ((n : ℝ) - mean l) ^ 2).sum / l.length + (a - mean l) ^ 2 := by
  have hl : (l.length : ℝ) ≠ 0 := by exact_mod_cast (List.length_pos_of_ne_nil h).ne'
  rw [sum_sq_shift l a (mean l)]
  have : (l.length : ℝ) * mean l - (l.sum : ℕ) = 0 := by unfold mean; field_simp; ring
  rw [this]
  field_simp
  ring

theorem sd_nonneg (l : List ℕ) : 0 ≤ sd l := Real.sqrt_nonneg _

theorem mean_nonneg (l : List ℕ) : 0 ≤ mean l := by unfold mean; positivity

/-- The square root of the mean squared difference from a number other than the mean. -/
theorem sqrt_shift (l : List ℕ) (h : l ≠ []) (a : ℝ) : sd l ≤ √((l.map fun n : ℕ => (a - n) * (a - n)).sum / l.length) ∧
    √((l.map fun n : ℕ => (a - n) * (a - n)).sum / l.length) ≤ sd l + |a - mean l| := by
  rw [var_shift l h a]
  have hv : 0 ≤ (l.map fun n : ℕ => ((n : ℝ) - mean l) ^ 2).sum / l.length := by
    apply div_nonneg _ (by positivity)
    apply List.sum_nonneg
    intro x hx
    obtain ⟨c, _, rfl⟩ := List.mem_map.mp hx
    positivity
  unfold sd
  generalize (l.map fun n : ℕ => ((n : ℝ) - mean l) ^ 2).sum / l.length = v at hv
  constructor
  · exact Real.sqrt_le_sqrt (by have := sq_nonneg (a - mean l); linarith)
  · rw [Real.sqrt_le_left (by positivity)]
    have h1 := Real.sq_sqrt hv
    have h2 := sq_abs (a - mean l)
    have h3 : 0 ≤ √v * |a - mean l| := by positivity
    nlinarith

/-- The standard deviation is zero only if all numbers are the same. -/
theorem sd_zero {l : List ℕ} (h : sd l = 0) : ∀ n ∈ l, (n : ℝ) = mean l := by
  intro n hn
  unfold sd at h
  have hne : 0 < l.length := List.length_pos_of_mem hn
  have h1 : (l.map fun n : ℕ => ((n : ℝ) - mean l) ^ 2).sum / l.length ≤ 0 := Real.sqrt_eq_zero'.mp h
  have h2 : (l.map fun n : ℕ => ((n : ℝ) - mean l) ^ 2).sum ≤ 0 := by
    by_contra hc
    have : 0 < (l.map fun n : ℕ => ((n : ℝ) - mean l) ^ 2).sum / l.length := div_pos (not_le.mp hc) (by exact_mod_cast hne)
    linarith
  have h3 : ((n : ℝ) - mean l) ^ 2 ≤ (l.map fun n : ℕ => ((n : ℝ) - mean l) ^ 2).sum := by
    apply List.single_le_sum
    · intro x hx
      obtain ⟨c, _, rfl⟩ := List.mem_map.mp hx
      positivity
    · exact List.mem_map.mpr ⟨n, hn, rfl⟩
  have h4 : ((n : ℝ) - mean l) ^ 2 = 0 := le_antisymm (h3.trans h2) (sq_nonneg _)
  have := pow_eq_zero_iff (two_ne_zero) |>.mp h4
  linarith

theorem mean_const {l : List ℕ} (hl : l ≠ []) {k : ℕ} (h : ∀ n ∈ l, n = k) : mean l = k := by
  have : l = List.replicate l.length k := List.eq_replicate_of_mem h
  have hl : (l.length : ℝ) ≠ 0 := by exact_mod_cast (List.length_pos_of_ne_nil hl).ne'
  unfold mean
  rw [this, List.sum_replicate, List.length_replicate]
  field_simp
  push_cast [smul_eq_mul]
  ring

theorem sd_const {l : List ℕ} {k : ℕ} (h : ∀ n ∈ l, n = k) : sd l = 0 := by
  by_cases hl : l = []
  · subst hl; simp [sd]
  unfold sd
  rw [mean_const hl h]
  have : (l.map fun n : ℕ => ((n : ℝ) - k) ^ 2).sum = 0 := by
    apply List.sum_eq_zero
    intro x hx
    obtain ⟨c, hc, rfl⟩ := List.mem_map.mp hx
    rw [h c hc]; simp
  rw [this]; simp

/-- numbering the pairs of a shard and a bucket in it -/
theorem grid_perm (n k : ℕ) : ((List.range n).flatMap fun j => (List.range k).map fun q => q * n + j).Perm (List.range (n * k)) := by
  rw [List.perm_ext_iff_of_nodup _ List.nodup_range]
  · intro a
    simp only [List.mem_flatMap, List.mem_map, List.mem_range]
    constructor
    · rintro ⟨j, hj, q, hq, rfl⟩
      calc q * n + j < q * n + n := by omega
        _ = (q + 1) * n := by ring
        _ ≤ k * n := Nat.mul_le_mul_right n hq
        _ = n * k := Nat.mul_comm _ _
    · intro h
      have hn : 0 < n := Nat.pos_of_ne_zero fun e => by simp [e] at h
      exact ⟨a % n, Nat.mod_lt _ hn, a / n, Nat.div_lt_of_lt_mul h, by rw [Nat.mul_comm]; exact Nat.div_add_mod a n⟩
  · rw [List.nodup_flatMap]
    constructor
    · intro j hj
      have hn : 0 < n := by have := List.mem_range.mp hj; omega
      exact (List.nodup_range).map fun a b e => by
        have e : a * n + j = b * n + j := e
        exact Nat.eq_of_mul_eq_mul_right hn (by omega)
    · refine List.Pairwise.imp_of_mem ?_ (List.nodup_range (n := n))
      intro a b ha hb hab
      simp only [List.mem_range] at ha hb
      intro x hx hy
      obtain ⟨q, _, rfl⟩ := List.mem_map.mp hx
      obtain ⟨r, _, e⟩ := List.mem_map.mp hy
      apply hab
      have e' : (r * n + b) % n = (q * n + a) % n := congrArg (· % n) e
      simpa [Nat.mod_eq_of_lt ha, Nat.mod_eq_of_lt hb] using e'.symm

/-- the numbers of postings of an index, by shard -/
def Index.allCounts (x : Index) : List ℕ := x.shards.flatMap fun s => s.counts.map UInt32.toNat

theorem sqDiffsAll_eq (a : ℝ) (x : Index) : Index.sqDiffsAll a x.shards = (x.allCounts.map fun n : ℕ => (a - n) * (a - n)).sum := by
  unfold Index.sqDiffsAll Index.allCounts
  generalize x.shards = xs
  induction xs with
  | nil => rfl
  | cons s xs ih =>
    rw [List.map_cons, List.sum_cons, ih, List.flatMap_cons, List.map_append, List.sum_append]
    simp [ShardIndex.sqDiffs, Function.comp_def]

theorem numPosts_eq (x : Index) : x.stats.numPosts = x.allCounts.sum := by
  unfold Index.stats Index.allCounts
  generalize x.shards = xs
  induction xs with
  | nil => rfl
  | cons s xs ih => simp_all [ShardIndex.numPosts]

theorem sum_lt_of_counts : ∀ l : List ℕ, (∀ n ∈ l, n < 2 ^ 32) → l.sum ≤ l.length * (2 ^ 32 - 1) := by
  intro l h
  have := List.sum_le_card_nsmul l (2 ^ 32 - 1) (fun n hn => by have := h n hn; omega)
  simpa using this

end Dupi
