import Verif.Proof.Moments
import Verif.Props.Extract
/-! # The mean and the deviation of the sizes of buckets, and the threshold of the extract command: C55, C56 -/

namespace Dupi.Props
open Spec Fl

section
variable {u : Uni} {J : CfgCodec} {srt : Sorter} {c : Config} (hU : Usable J c) (hsrt : IsSorter srt)
include hU hsrt

/-- the counts kept in the shards are the sizes of the buckets -/
theorem counts_perm {h : Sessions} {x : Index} {q : QState} (hr : Reading u J srt c h x q) (hf : Fits u c (documents h)) :
    x.allCounts.Perm (bucketSizes u c (documents h)) := by
  obtain ⟨h1, _⟩ := hr.rep hU hsrt hf
  have hs : x.shards.map (fun s => s.counts.map UInt32.toNat) = (List.range c.numShards.toNat).map fun j =>
      (List.range 65536).map fun q => (found u c (documents h) (q * c.numShards.toNat + j)).length := by
    apply List.ext_getElem?
    intro j
    simp only [List.getElem?_map]
    by_cases hj : j < c.numShards.toNat
    · have hj' : j < x.shards.length := by rw [h1.len]; exact hj
      rw [List.getElem?_eq_getElem hj', List.getElem?_eq_getElem (by simpa using hj)]
      simp only [Option.map_some, List.getElem_range]
      have h6 := h1.sh j x.shards[j] (List.getElem?_eq_getElem hj')
      refine congrArg some ?_
      apply List.ext_getElem
      · simp [h6.lenC]
      · intro i g1 g2
        have hi : i < 65536 := by simpa [h6.lenC] using g1
        have := h6.counts i hi
        have hc : i < x.shards[j].counts.length := by rw [h6.lenC]; exact hi
        simp only [List.getD_eq_getElem?_getD, List.getElem?_eq_getElem hc, Option.getD_some] at this
        simp only [List.getElem_map, List.getElem_range, this]
        rw [← bucketIds_length_found u c _ hf.ids, Nat.mul_add_mod_self_right, Nat.mod_eq_of_lt hj, Nat.mul_comm,
          Nat.mul_add_div (by omega), Nat.div_eq_of_lt hj, Nat.add_zero, Nat.mod_eq_of_lt hi]
    · rw [List.getElem?_eq_none (by rw [h1.len]; omega), List.getElem?_eq_none (by simp; omega)]; rfl
  have e : x.allCounts = ((List.range c.numShards.toNat).flatMap fun j => (List.range 65536).map fun q => q * c.numShards.toNat + j).map
      fun b => (found u c (documents h) b).length := by
    unfold Index.allCounts
    rw [List.flatMap_def, hs, List.map_flatMap, List.flatMap_def]
    simp only [List.map_map, Function.comp_def]
  rw [e]
  exact (grid_perm _ _).map _

/-- What the statistics of an index after any history are made of. -/
theorem stats_near (fused : Bool) {h : Sessions} {x : Index} {q : QState} (hr : Reading u J srt c h x q) (hf : Fits u c (documents h)) :
    ∃ m s v, x.blotStats fused = some (m, s) ∧ Near 2 (mean (bucketSizes u c (documents h))) m ∧
      ((bucketSizes u c (documents h)).sum < 2 ^ 53 → Fl.round (mean (bucketSizes u c (documents h))) = some m) ∧
      Near (65541 + c.numShards.toNat) v s ∧ sd (bucketSizes u c (documents h)) ≤ v ∧ v ≤ sd (bucketSizes u c (documents h)) + |m - mean (bucketSizes u c (documents h))| ∧
      (v = 0 ∨ (1 / 2) ^ 240 ≤ v) ∧ v ≤ 2 ^ 40 ∧ IsAvg m := by
  obtain ⟨h1, _⟩ := hr.rep hU hsrt hf
  have hp := counts_perm hU hsrt hr hf
  have hn := hU.shards
  have hn' := hU.shardsSmall
  have hlen : (bucketSizes u c (documents h)).length = 65536 * x.shards.length := by
    rw [bucketSizes, List.length_map, List.length_range, numBuckets, h1.len, Nat.mul_comm]
  have hP : x.stats.numPosts = (bucketSizes u c (documents h)).sum := by rw [numPosts_eq, hp.sum_eq]
  have hB : x.stats.numBlots = (bucketSizes u c (documents h)).length := by rw [hlen]; rfl
  have hne : bucketSizes u c (documents h) ≠ [] := by
    intro e
    have := congrArg List.length e
    rw [hlen, h1.len] at this
    simp at this
    omega
  have hlt : ∀ n ∈ bucketSizes u c (documents h), n < 2 ^ 32 := by
    intro n hn
    rw [← hp.mem_iff] at hn
    obtain ⟨s, _, hs⟩ := List.mem_flatMap.mp hn
    obtain ⟨v, _, rfl⟩ := List.mem_map.mp hs
    exact v.toNat_lt
  have hsum := sum_lt_of_counts _ hlt
  have hl0 := List.length_pos_of_ne_nil hne
  have hlt' : x.stats.numPosts < x.stats.numBlots * 2 ^ 32 := by rw [hP, hB]; omega
  have hx0 : 0 < x.shards.length := by rw [h1.len]; omega
  have hx1 : x.shards.length < 2 ^ 32 := by rw [h1.len]; omega
  obtain ⟨m, e1, e2, e3, e4⟩ := x.blotMean_near hx0 hx1 hlt'
  have hL : ∀ s ∈ x.shards, s.counts.length = 65536 := by
    intro s hs
    obtain ⟨j, hj⟩ := List.getElem?_of_mem hs
    exact (h1.sh j s hj).lenC
  obtain ⟨s, g1, g2, g3, g4⟩ := x.blotSigma_near fused e3 hL hx0 hx1
  have hmean : (x.stats.numPosts : ℝ) / x.stats.numBlots = mean (bucketSizes u c (documents h)) := by rw [hP, hB]; rfl
  have hv : Index.sqDiffsAll m x.shards / (65536 * x.shards.length : ℕ) =
      ((bucketSizes u c (documents h)).map fun n : ℕ => (m - n) * (m - n)).sum / (bucketSizes u c (documents h)).length := by
    rw [sqDiffsAll_eq, (hp.map _).sum_eq, hlen]
  obtain ⟨k1, k2⟩ := sqrt_shift _ hne m
  rw [hmean] at e2
  rw [hv, h1.len] at g2
  rw [hv] at g3 g4
  refine ⟨m, s, _, ?_, e2, ?_, g2, k1, k2, g3, g4, e3⟩
  · simp only [Index.blotStats, e1, g1, Option.bind_eq_bind, Option.bind_some]; rfl
  · intro hs
    rw [← hmean, ← e1]
    have hb : x.stats.numBlots = 65536 * x.shards.length := rfl
    have hb0 : (x.stats.numBlots : ℝ) ≠ 0 := by exact_mod_cast (show x.stats.numBlots ≠ 0 by omega)
    simp only [Index.blotMean, ofNat_exact _ (show x.stats.numPosts < 2 ^ 53 by omega), ofNat_exact _ (show x.stats.numBlots < 2 ^ 53 by omega),
      Option.bind_eq_bind, Option.bind_some, Fl.div, if_neg hb0]

omit hU hsrt in
theorem near_abs {k : ℕ} {x y : ℝ} (h : Near k x y) (hk : k ≤ 2 ^ 52) : |y - x| ≤ k / 2 ^ 52 * x := by
  have h1 := rk_bern k
  have h2 := h.lower
  have h3 := h.upper
  have h4 := h.pos
  have h5 := h.pos'
  have hk' : (k : ℝ) ≤ 2 ^ 52 := by exact_mod_cast hk
  have ht : (k : ℝ) * eps = k / 2 ^ 52 / 2 := by unfold eps; norm_num; ring
  have ht0 : 0 ≤ (k : ℝ) / 2 ^ 52 := by positivity
  have ht1 : (k : ℝ) / 2 ^ 52 ≤ 1 := by rw [div_le_one (by positivity)]; exact hk'
  rw [ht] at h1
  generalize (k : ℝ) / 2 ^ 52 = t at *
  have g1 : (1 - t / 2) * x ≤ y := le_trans (mul_le_mul_of_nonneg_right h1 h4) h2
  have g2 : (1 - t / 2) * y ≤ x := le_trans (mul_le_mul_of_nonneg_right h1 h5) h3
  rw [abs_le]
  constructor
  · nlinarith [mul_nonneg ht0 h4]
  · have g3 : y ≤ (1 + t) * x := by
      have : (1 + t) * ((1 - t / 2) * y) ≤ (1 + t) * x := mul_le_mul_of_nonneg_left g2 (by linarith)
      have e : (1 + t) * ((1 - t / 2) * y) = y + t * (1 - t) / 2 * y := by ring
      have : 0 ≤ t * (1 - t) / 2 * y := mul_nonneg (by have := mul_nonneg ht0 (sub_nonneg.mpr ht1); linarith) h5
      linarith
    linarith

/-- the accuracy of the statistics -/
theorem stats_abs (fused : Bool) {h : Sessions} {x : Index} {q : QState} (hr : Reading u J srt c h x q) (hf : Fits u c (documents h)) :
    ∃ m s, x.blotStats fused = some (m, s) ∧ |m - mean (bucketSizes u c (documents h))| ≤ mean (bucketSizes u c (documents h)) / 2 ^ 51 ∧
      |s - sd (bucketSizes u c (documents h))| ≤
        (65541 + c.numShards.toNat) / 2 ^ 52 * sd (bucketSizes u c (documents h)) + mean (bucketSizes u c (documents h)) / 2 ^ 50 := by
  obtain ⟨m, s, v, e1, e2, e3, e4, e5, e6, e7, e8, e9⟩ := stats_near hU hsrt fused hr hf
  have hn' := hU.shardsSmall
  have h1 := near_abs e2 (by norm_num)
  have h2 := near_abs e4 (by omega)
  have hμ := mean_nonneg (bucketSizes u c (documents h))
  have hm : |m - mean (bucketSizes u c (documents h))| ≤ mean (bucketSizes u c (documents h)) / 2 ^ 51 := by
    refine h1.trans (le_of_eq ?_); push_cast; ring
  refine ⟨m, s, e1, hm, ?_⟩
  push_cast at h2
  have hK : (65541 + (c.numShards.toNat : ℝ)) / 2 ^ 52 ≤ 1 := by
    rw [div_le_one (by positivity)]
    exact_mod_cast (show 65541 + c.numShards.toNat ≤ 2 ^ 52 by omega)
  have hK0 : 0 ≤ (65541 + (c.numShards.toNat : ℝ)) / 2 ^ 52 := by positivity
  generalize (65541 + (c.numShards.toNat : ℝ)) / 2 ^ 52 = K at *
  generalize sd (bucketSizes u c (documents h)) = D at *
  generalize mean (bucketSizes u c (documents h)) = μ at *
  have h3 : K * v ≤ K * D + μ / 2 ^ 51 := by
    have a1 : K * v ≤ K * (D + μ / 2 ^ 51) := mul_le_mul_of_nonneg_left (by linarith) hK0
    have a2 : K * (μ / 2 ^ 51) ≤ 1 * (μ / 2 ^ 51) := mul_le_mul_of_nonneg_right hK (by positivity)
    linarith [mul_add K D (μ / 2 ^ 51)]
  have e : μ / 2 ^ 50 = μ / 2 ^ 51 + μ / 2 ^ 51 := by ring
  rw [abs_le] at h2 hm ⊢
  constructor <;> linarith

/-- **C55.**  After any history the `BlotMean` of the statistics is the mean of the numbers of documents in a bucket up to two roundings; if
there are fewer than 2^53 postings it is the float64 nearest to it. -/
theorem C55_mean (fused : Bool) {h : Sessions} {x : Index} {q : QState} (hr : Reading u J srt c h x q) (hf : Fits u c (documents h)) :
    ∃ m s, x.blotStats fused = some (m, s) ∧ |m - mean (bucketSizes u c (documents h))| ≤ mean (bucketSizes u c (documents h)) / 2 ^ 51 ∧
      ((bucketSizes u c (documents h)).sum < 2 ^ 53 → Is64 m ∧
        ∀ z, Is64 z → |m - mean (bucketSizes u c (documents h))| ≤ |z - mean (bucketSizes u c (documents h))|) := by
  obtain ⟨m, s, e1, e2, _⟩ := stats_abs hU hsrt fused hr hf
  obtain ⟨m', s', v, g1, _, g3, _⟩ := stats_near hU hsrt fused hr hf
  rw [e1] at g1
  injection g1 with g1
  injection g1 with g1 g2
  subst g1
  exact ⟨m, s, e1, e2, fun hs => ⟨round_is64 (g3 hs), round_nearest (g3 hs)⟩⟩

/-- **C55.**  `BlotSigma` is their standard deviation, with an error of at most (65541 + NumShards) units of 2^-52 relative to
it and 2^-50 relative to the mean. -/
theorem C55_sigma (fused : Bool) {h : Sessions} {x : Index} {q : QState} (hr : Reading u J srt c h x q) (hf : Fits u c (documents h)) :
    ∃ m s, x.blotStats fused = some (m, s) ∧ |s - sd (bucketSizes u c (documents h))| ≤
        (65541 + c.numShards.toNat) / 2 ^ 52 * sd (bucketSizes u c (documents h)) + mean (bucketSizes u c (documents h)) / 2 ^ 50 := by
  obtain ⟨m, s, e1, _, e2⟩ := stats_abs hU hsrt fused hr hf
  exact ⟨m, s, e1, e2⟩

/-- **C55.**  With fewer than 2^53 postings, `BlotSigma` is 0 precisely if all buckets have the same number of documents. -/
theorem C55_flat (fused : Bool) {h : Sessions} {x : Index} {q : QState} (hr : Reading u J srt c h x q) (hf : Fits u c (documents h))
    (hs : (bucketSizes u c (documents h)).sum < 2 ^ 53) :
    ∃ m s, x.blotStats fused = some (m, s) ∧ (s = 0 ↔ ∃ k, ∀ n ∈ bucketSizes u c (documents h), n = k) := by
  obtain ⟨m, s, v, e1, e2, e3, e4, e5, e6, _⟩ := stats_near hU hsrt fused hr hf
  have hn' := hU.shardsSmall
  refine ⟨m, s, e1, ?_, ?_⟩
  · intro h0
    subst h0
    have h1 := e4.lower
    have h2 := rk_pos (65541 + c.numShards.toNat)
    have h3 := e4.pos
    clear e2 e3 e4
    generalize (1 - eps) ^ (65541 + c.numShards.toNat) = r at h1 h2
    have hv : v = 0 := by
      by_contra hv
      have := mul_pos h2 (lt_of_le_of_ne h3 (Ne.symm hv))
      linarith
    have hD : sd (bucketSizes u c (documents h)) = 0 := le_antisymm (by linarith) (sd_nonneg _)
    have hz := sd_zero hD
    generalize bucketSizes u c (documents h) = l at *
    cases l with
    | nil => exact ⟨0, by simp⟩
    | cons a l =>
      refine ⟨a, fun n hn => ?_⟩
      have g1 := hz n hn
      have g2 := hz a (by simp)
      exact_mod_cast g1.trans g2.symm
  · rintro ⟨k, hk⟩
    have hD := sd_const hk
    by_cases hl : bucketSizes u c (documents h) = []
    · have := congrArg List.length hl
      have hn := hU.shards
      simp [bucketSizes, numBuckets] at this
      omega
    · have hμ := mean_const hl hk
      have hm : m = k := by
        have hlen := List.length_pos_of_ne_nil hl
        have hr' := e3 hs
        rw [hμ] at hr'
        have hkk : k < 2 ^ 53 := by
          obtain ⟨a, ha⟩ := List.exists_mem_of_ne_nil _ hl
          have := List.single_le_sum (l := bucketSizes u c (documents h)) (fun _ _ => Nat.zero_le _) a ha
          rw [hk a ha] at this
          omega
        have := ofNat_exact k hkk
        rw [ofNat, hr'] at this
        injection this
      rw [hD, hμ, hm] at e6
      have hv : v = 0 := le_antisymm (by simpa using e6) e4.pos
      subst hv
      exact e4.zero

omit hU hsrt in
theorem mathRound_err (w : ℝ) : |(Cmd.mathRound w : ℝ) - w| ≤ 1 / 2 := by
  unfold Cmd.mathRound
  split
  · have r1 := Int.floor_le (-w + 1 / 2)
    have r2 := Int.lt_floor_add_one (-w + 1 / 2)
    push_cast
    rw [abs_le]
    constructor <;> linarith
  · have r1 := Int.floor_le (w + 1 / 2)
    have r2 := Int.lt_floor_add_one (w + 1 / 2)
    rw [abs_le]
    constructor <;> linarith

omit hU hsrt in
/-- the threshold for statistics near some numbers -/
theorem threshold_near (fused : Bool) {K : ℕ} {μ v m s σ : ℝ} (hK2 : 2 ≤ K) (hK : K + 2 ≤ 2 ^ 51) (hm : Near 2 μ m) (hs : Near K v s) (ha : IsAvg m)
    (hz : μ = 0 → v = 0) (hhi1 : |σ| * v ≤ 2 ^ 60) :
    ∃ N, Cmd.threshold fused m s σ = some N ∧ |(N : ℝ) - (μ + σ * v)| ≤ 1 / 2 + (K + 2) / 2 ^ 52 * (μ + |σ| * v) := by
  have hμ := hm.pos
  have hv0 := hs.pos
  have hσ0 := abs_nonneg σ
  have hhi2 : μ ≤ 2 ^ 41 := by
    have h1 := hm.lower
    have h2 := rk_half (show 2 ≤ 2 ^ 52 by norm_num)
    have h3 : 1 / 2 * μ ≤ (1 - eps) ^ 2 * μ := mul_le_mul_of_nonneg_right h2 hμ
    have h4 := ha.le
    have : (2 : ℝ) ^ 41 = 2 * 2 ^ 40 := by rw [← pow_succ']
    linarith
  have ha0 : 0 ≤ |σ| * v := mul_nonneg hσ0 hv0
  have hT : μ + |σ| * v ≤ 2 ^ 61 := by
    have : (2 : ℝ) ^ 41 + 2 ^ 60 ≤ 2 ^ 61 := by norm_num
    linarith
  have hK' : ((K : ℝ) + 2) / 2 ^ 52 ≤ 1 / 2 := by
    rw [div_le_iff₀ (by positivity)]
    have : ((K + 2 : ℕ) : ℝ) ≤ ((2 ^ 51 : ℕ) : ℝ) := by exact_mod_cast hK
    push_cast at this
    linarith
  have key : ∃ w, Cmd.cutoff fused m s σ = some w ∧ |w - (μ + σ * v)| ≤ (K + 2) / 2 ^ 52 * (μ + |σ| * v) := by
    by_cases h0 : m = 0
    · have hμ0 : μ = 0 := by
        subst h0
        have h1 := hm.lower
        by_contra hne
        have := mul_pos (rk_pos 2) (lt_of_le_of_ne hμ (Ne.symm hne))
        linarith
      have hvz := hz hμ0
      subst hvz
      have hs0 := hs.zero
      subst h0 hμ0 hs0
      refine ⟨0, ?_, by simp⟩
      cases fused <;> simp [Cmd.cutoff, Fl.fma, Fl.mul, Fl.add, round_zero]
    · have hμl : ((1 : ℝ) / 2) ^ 201 ≤ μ := by
        have h1 := ha.grid.small h0
        rw [abs_of_nonneg ha.pos] at h1
        have h2 := rk_half (show 2 ≤ 2 ^ 52 by norm_num)
        have h3 : 1 / 2 * m ≤ (1 - eps) ^ 2 * m := mul_le_mul_of_nonneg_right h2 ha.pos
        have h4 := hm.upper
        calc ((1 : ℝ) / 2) ^ 201 = 1 / 2 * (1 / 2) ^ 200 := by rw [← pow_succ']
          _ ≤ 1 / 2 * m := by gcongr
          _ ≤ μ := by linarith
      -- the absolute error of an operation
      obtain ⟨τ, hτ0, hτ, hτμ⟩ : ∃ τ : ℝ, 0 ≤ τ ∧ τ = (1 / 2) ^ 1000 ∧ 4 * τ ≤ 1 / 2 ^ 52 * μ := by
        refine ⟨(1 / 2) ^ 1000, pow_nonneg (by norm_num) _, rfl, ?_⟩
        calc 4 * ((1 : ℝ) / 2) ^ 1000 ≤ 4 * (1 / 2) ^ 255 := by
              have : ((1 : ℝ) / 2) ^ 1000 ≤ (1 / 2) ^ 255 := pow_le_pow_of_le_one (by norm_num) (by norm_num) (by norm_num)
              linarith
          _ = 1 / 2 ^ 52 * (1 / 2) ^ 201 := by
              rw [show (4 : ℝ) = (1 / 2 ^ 52) * 2 ^ 54 by norm_num, mul_assoc, show 255 = 54 + 201 by norm_num, pow_add, ← mul_assoc ((2 : ℝ) ^ 54), ← mul_pow]
              norm_num
          _ ≤ 1 / 2 ^ 52 * μ := by gcongr
      have hma := near_abs hm (by norm_num)
      have hsa := near_abs hs (by omega)
      push_cast at hma
      have hsσ : |σ * s - σ * v| ≤ K / 2 ^ 52 * (|σ| * v) := by
        rw [← mul_sub, abs_mul]
        calc |σ| * |s - v| ≤ |σ| * (K / 2 ^ 52 * v) := by gcongr
          _ = _ := by ring
      have hKt : (K : ℝ) / 2 ^ 52 + 2 * (1 / 2 ^ 52) ≤ 1 / 2 := by rw [add_div] at hK'; linarith
      have hE : ((K : ℝ) + 2) / 2 ^ 52 = K / 2 ^ 52 + 2 * (1 / 2 ^ 52) := by ring
      have hK2' : 2 * ((1 : ℝ) / 2 ^ 52) ≤ K / 2 ^ 52 := by
        have : (2 : ℝ) ≤ K := by exact_mod_cast hK2
        rw [mul_one_div]
        gcongr
      rw [hE]
      have heps : eps = 1 / 2 ^ 52 / 2 := by unfold eps; norm_num
      rw [show (2 : ℝ) / 2 ^ 52 * μ = 2 * (1 / 2 ^ 52 * μ) by ring] at hma
      have ht0 : (0 : ℝ) < 1 / 2 ^ 52 := by positivity
      have ht1 : (1 : ℝ) / 2 ^ 52 ≤ 1 / 8 := by norm_num
      have hX : |σ * v| = |σ| * v := by rw [abs_mul, abs_of_nonneg hv0]
      have hbig : (2 : ℝ) ^ 61 * 4 ≤ 2 ^ 1023 := by
        calc (2 : ℝ) ^ 61 * 4 = 2 ^ 63 := by norm_num
          _ ≤ 2 ^ 1023 := pow_le_pow_right₀ (by norm_num) (by norm_num)
      have hτ1 : τ ≤ 2 ^ 61 := by
        have : ((1 : ℝ) / 2) ^ 1000 ≤ 1 := pow_le_one₀ (by norm_num) (by norm_num)
        have : (1 : ℝ) ≤ 2 ^ 61 := by norm_num
        rw [hτ]; linarith
      have rnd : ∀ x : ℝ, |x| ≤ 2 ^ 61 * 4 → ∃ y, Fl.round x = some y ∧ |y - x| ≤ 1 / 2 ^ 52 / 2 * |x| + τ := by
        intro x hx
        rw [hτ, ← heps]
        exact round_any (hx.trans hbig)
      clear hbig hτ heps hK' hE hhi1 hhi2 hs hm ha
      generalize (2 : ℝ) ^ 61 = B at *
      generalize (1 : ℝ) / 2 ^ 52 = t at *
      generalize (K : ℝ) / 2 ^ 52 = κ at *
      have p1 : t * μ ≤ 1 / 8 * μ := mul_le_mul_of_nonneg_right ht1 hμ
      have p2 : t * (|σ| * v) ≤ 1 / 8 * (|σ| * v) := mul_le_mul_of_nonneg_right ht1 ha0
      have p3 : κ * (|σ| * v) + 2 * (t * (|σ| * v)) ≤ 1 / 2 * (|σ| * v) := by
        have := mul_le_mul_of_nonneg_right hKt ha0
        linarith [add_mul κ (2 * t) (|σ| * v)]
      have p4 : 2 * (t * μ) ≤ κ * μ := by
        have := mul_le_mul_of_nonneg_right hK2' hμ
        linarith
      have p5 : 0 ≤ t * (|σ| * v) := mul_nonneg ht0.le ha0
      have p6 : 0 ≤ t * μ := mul_nonneg ht0.le hμ
      rw [show (κ + 2 * t) * (μ + |σ| * v) = κ * μ + 2 * (t * μ) + κ * (|σ| * v) + 2 * (t * (|σ| * v)) by ring]
      have hX' := abs_le.mp hX.le
      generalize σ * v = X at *
      generalize |σ| * v = A at *
      have hb := abs_le.mp hsσ
      have hc := abs_le.mp hma
      cases fused with
      | true =>
        have q1 : |σ * s + m| ≤ 3 / 2 * μ + 3 / 2 * A := by rw [abs_le]; constructor <;> linarith
        obtain ⟨w, w1, w2⟩ := rnd (σ * s + m) (by linarith)
        have q2 : t / 2 * |σ * s + m| ≤ t * μ + t * A := by
          have := mul_le_mul_of_nonneg_left q1 (show 0 ≤ t / 2 by linarith)
          linarith [show t / 2 * (3 / 2 * μ + 3 / 2 * A) = 3 / 4 * (t * μ) + 3 / 4 * (t * A) by ring]
        refine ⟨w, ?_, ?_⟩
        · rw [Cmd.cutoff, if_pos rfl, Fl.fma]; exact w1
        · have := abs_le.mp w2
          rw [abs_le]
          constructor <;> linarith
      | false =>
        have q1 : |σ * s| ≤ 3 / 2 * A := by rw [abs_le]; constructor <;> linarith
        obtain ⟨p, f1, f2⟩ := rnd (σ * s) (by linarith)
        have q2 : t / 2 * |σ * s| ≤ t * A := by
          have := mul_le_mul_of_nonneg_left q1 (show 0 ≤ t / 2 by linarith)
          linarith [show t / 2 * (3 / 2 * A) = 3 / 4 * (t * A) by ring]
        have f3 := abs_le.mp f2
        have q3 : |m + p| ≤ 3 / 2 * μ + 2 * A := by rw [abs_le]; constructor <;> linarith
        obtain ⟨w, g1, g2⟩ := rnd (m + p) (by linarith)
        have q4 : t / 2 * |m + p| ≤ t * μ + t * A := by
          have := mul_le_mul_of_nonneg_left q3 (show 0 ≤ t / 2 by linarith)
          linarith [show t / 2 * (3 / 2 * μ + 2 * A) = 3 / 4 * (t * μ) + t * A by ring]
        refine ⟨w, ?_, ?_⟩
        · simp only [Cmd.cutoff, Bool.false_eq_true, if_false, Fl.mul, f1, Option.bind_eq_bind, Option.bind_some, Fl.add, g1]
        · have := abs_le.mp g2
          rw [abs_le]
          constructor <;> linarith
  obtain ⟨w, w1, hwa⟩ := key
  have hr := mathRound_err w
  have hT0 : 0 ≤ μ + |σ| * v := by linarith
  have hw : |w - (μ + σ * v)| ≤ 1 / 2 * (μ + |σ| * v) := hwa.trans (mul_le_mul_of_nonneg_right hK' hT0)
  have hX : |σ * v| = |σ| * v := by rw [abs_mul, abs_of_nonneg hv0]
  have hX' := abs_le.mp hX.le
  rw [abs_le] at hr
  refine ⟨Cmd.mathRound w, ?_, ?_⟩
  · unfold Cmd.threshold
    simp only [Option.bind_eq_bind]
    rw [w1, Option.bind_some, if_pos]
    rw [abs_le] at hw
    have : (2 : ℝ) ^ 63 = 4 * 2 ^ 61 := by norm_num
    rw [abs_lt]
    generalize (2 : ℝ) ^ 63 = A at *
    have h61 : (1 : ℝ) ≤ 2 ^ 61 := by norm_num
    generalize (2 : ℝ) ^ 61 = B at *
    constructor <;> linarith
  · rw [abs_le] at hwa ⊢
    constructor <;> linarith

omit hU hsrt in
theorem sd_of_mean_zero {l : List ℕ} (hl : l ≠ []) (h : mean l = 0) : sd l = 0 := by
  refine sd_const (k := 0) fun n hn => ?_
  have hlen : (l.length : ℝ) ≠ 0 := by exact_mod_cast (List.length_pos_of_ne_nil hl).ne'
  unfold mean at h
  rw [div_eq_zero_iff] at h
  have h0 : l.sum = 0 := by exact_mod_cast h.resolve_right hlen
  have := List.single_le_sum (l := l) (fun _ _ => Nat.zero_le _) n hn
  omega

omit hsrt in
theorem sizes_ne (docs : List Document) : bucketSizes u c docs ≠ [] := by
  intro e
  have := congrArg List.length e
  have hn := hU.shards
  simp [bucketSizes, numBuckets] at this
  omega

omit hsrt in
theorem no_spread {docs : List Document} {m v : ℝ} (hm : |m - mean (bucketSizes u c docs)| ≤ (2 : ℕ) / 2 ^ 52 * mean (bucketSizes u c docs))
    (e6 : v ≤ sd (bucketSizes u c docs) + |m - mean (bucketSizes u c docs)|) (h0 : 0 ≤ v) (h : mean (bucketSizes u c docs) = 0) : v = 0 := by
  have hD := sd_of_mean_zero (sizes_ne hU docs) h
  rw [h] at hm e6
  rw [hD] at e6
  rw [mul_zero] at hm
  exact le_antisymm (by linarith) h0

/-- **C56.**  For every value of the flag -sigma between -2^20 and 2^20, the extract command prints the blots, of at least two
documents, whose number of documents is at least the mean plus that many standard deviations, rounded to an integer: blots with fewer
documents than that are not printed and blots with at least that many are, except within 1/2 and the error of the statistics. -/
theorem C56_sigma (json fused fused' : Bool) {h : Sessions} {x : Index} {q : QState} (hr : Reading u J srt c h x q) (hf : Fits u c (documents h)) (grow : Nat → Nat)
    (ff fuel k : Nat) (hff : 2 ^ 32 ≤ ff) (hfuel : 2 ^ 32 + 2 ^ 32 + 2 ^ 32 < fuel) (hk : 2 ^ 32 < k)
    (σ : ℝ) (hσ : |σ| ≤ 2 ^ 20) :
    ∃ T δ out, T = mean (bucketSizes u c (documents h)) + σ * sd (bucketSizes u c (documents h)) ∧
      δ = 1 / 2 + (65543 + c.numShards.toNat) / 2 ^ 52 * (mean (bucketSizes u c (documents h)) + |σ| * sd (bucketSizes u c (documents h))) +
        |σ| * mean (bucketSizes u c (documents h)) / 2 ^ 50 ∧
      Cmd.extractSigma json fused fused' grow x ff fuel k σ = some (.ok out) ∧ (out.map Blot.blot).Nodup ∧
      (∀ b ∈ out, b.blot.toNat < numBuckets c ∧ b.vis = (found u c (documents h) b.blot.toNat).map Document.shown ∧ 2 ≤ b.vis.length ∧ T - δ ≤ b.vis.length) ∧
      (∀ b : UInt32, b.toNat < numBuckets c → 2 ≤ (found u c (documents h) b.toNat).length → T + δ ≤ (found u c (documents h) b.toNat).length →
        b ∈ out.map Blot.blot) ∧
      out.Pairwise (fun a b => b.vis.length ≤ a.vis.length) := by
  obtain ⟨m, s, v, e1, e2, e3, e4, e5, e6, e7, e8, e9⟩ := stats_near hU hsrt fused hr hf
  have hn' := hU.shardsSmall
  have hz := no_spread hU (near_abs e2 (by norm_num)) e6 e4.pos
  obtain ⟨N, n1, n2⟩ := threshold_near fused' (by omega) (by omega) e2 e4 e9 hz (show |σ| * v ≤ 2 ^ 60 by
    have := e4.pos
    calc |σ| * v ≤ 2 ^ 20 * 2 ^ 40 := by gcongr
      _ = 2 ^ 60 := by rw [← pow_add])
  obtain ⟨out, o1, o2, o3, o4, o5⟩ := C39_extract hU hsrt hr hf json grow ff fuel k hff hfuel hk N
  have hσ0 := abs_nonneg σ
  have hμ := mean_nonneg (bucketSizes u c (documents h))
  have hm := near_abs e2 (by norm_num)
  have hK : (65543 + (c.numShards.toNat : ℝ)) / 2 ^ 52 ≤ 1 := by
    rw [div_le_one (by positivity)]
    exact_mod_cast (show 65543 + c.numShards.toNat ≤ 2 ^ 52 by omega)
  have hK0 : 0 ≤ (65543 + (c.numShards.toNat : ℝ)) / 2 ^ 52 := by positivity
  have hN : |(N : ℝ) - (mean (bucketSizes u c (documents h)) + σ * sd (bucketSizes u c (documents h)))| ≤
      1 / 2 + (65543 + c.numShards.toNat) / 2 ^ 52 * (mean (bucketSizes u c (documents h)) + |σ| * sd (bucketSizes u c (documents h))) +
        |σ| * mean (bucketSizes u c (documents h)) / 2 ^ 50 := by
    push_cast at n2 hm
    rw [show (65541 : ℝ) + c.numShards.toNat + 2 = 65543 + c.numShards.toNat by ring] at n2
    generalize (65543 + (c.numShards.toNat : ℝ)) / 2 ^ 52 = K at *
    generalize sd (bucketSizes u c (documents h)) = D at *
    generalize mean (bucketSizes u c (documents h)) = μ at *
    have hv2 : v ≤ D + μ / 2 ^ 51 := by
      have : (2 : ℝ) / 2 ^ 52 * μ = μ / 2 ^ 51 := by ring
      linarith
    have g2 : |σ| * v ≤ |σ| * D + |σ| * μ / 2 ^ 51 := by
      have := mul_le_mul_of_nonneg_left hv2 hσ0
      linarith [mul_add |σ| D (μ / 2 ^ 51), mul_div_assoc |σ| μ (2 ^ 51)]
    have g1 : |σ * v - σ * D| ≤ |σ| * μ / 2 ^ 51 := by
      rw [← mul_sub, abs_mul, abs_of_nonneg (show 0 ≤ v - D by linarith), mul_sub]
      linarith
    have g3 : 0 ≤ |σ| * μ / 2 ^ 51 := by positivity
    have g4 : K * (μ + |σ| * v) ≤ K * (μ + |σ| * D) + |σ| * μ / 2 ^ 51 := by
      have a1 : K * (μ + |σ| * v) ≤ K * ((μ + |σ| * D) + |σ| * μ / 2 ^ 51) := mul_le_mul_of_nonneg_left (by linarith) hK0
      have a2 : K * (|σ| * μ / 2 ^ 51) ≤ 1 * (|σ| * μ / 2 ^ 51) := mul_le_mul_of_nonneg_right hK g3
      linarith [mul_add K (μ + |σ| * D) (|σ| * μ / 2 ^ 51)]
    have e : |σ| * μ / 2 ^ 50 = |σ| * μ / 2 ^ 51 + |σ| * μ / 2 ^ 51 := by ring
    rw [abs_le] at n2 g1 ⊢
    constructor <;> linarith
  refine ⟨_, _, out, rfl, rfl, ?_, o2, ?_, ?_, o5⟩
  · simp only [Cmd.extractSigma, e1, Option.bind_eq_bind, Option.bind_some, n1, o1]; rfl
  · intro b hb
    obtain ⟨p1, p2, p3⟩ := (o3 b.blot).mp (List.mem_map.mpr ⟨b, hb, rfl⟩)
    have hvis := o4 b hb
    have hlen : b.vis.length = (found u c (documents h) b.blot.toNat).length := by rw [hvis, List.length_map]
    refine ⟨p1, hvis, by omega, ?_⟩
    have : (N : ℝ) ≤ (b.vis.length : ℝ) := by rw [hlen]; exact_mod_cast p3
    rw [abs_le] at hN
    linarith
  · intro b p1 p2 p3
    refine (o3 b).mpr ⟨p1, p2, ?_⟩
    rw [abs_le] at hN
    have : (N : ℝ) ≤ ((found u c (documents h) b.toNat).length : ℝ) := by linarith
    exact_mod_cast this

end
/-- the example index has fewer than 2^53 postings -/
theorem exSum : (bucketSizes asciiUni exQConfig (documents exHistory)).sum < 2 ^ 53 := by
  have h : ∀ n ∈ bucketSizes asciiUni exQConfig (documents exHistory), n ≤ (documents exHistory).length := by
    intro n hn
    obtain ⟨b, _, rfl⟩ := List.mem_map.mp hn
    exact List.length_filter_le _ _
  have h1 := List.sum_le_card_nsmul _ _ h
  have h2 : (bucketSizes asciiUni exQConfig (documents exHistory)).length = 196608 := by
    rw [bucketSizes, List.length_map, List.length_range]; rfl
  rw [h2] at h1
  have h3 : (documents exHistory).length < 100 := by decide +kernel
  rw [smul_eq_mul] at h1
  omega

/-- Not all of its buckets have the same number of documents: its `BlotSigma` is positive. -/
example : ∃ x q m s, Reading asciiUni ⟨fun _ => [], fun _ => .ok exQConfig⟩ mergeSorter exQConfig exHistory x q ∧
    x.blotStats false = some (m, s) ∧ s ≠ 0 := by
  obtain ⟨x, q, hr⟩ := exReading
  obtain ⟨m, s, h1, h2⟩ := C55_flat exUsable mergeSorter_isSorter false hr exFits exSum
  refine ⟨x, q, m, s, hr, h1, fun h0 => ?_⟩
  obtain ⟨k, hk⟩ := h2.mp h0
  have a1 := hk _ (List.mem_map.mpr ⟨(fnv32 [99] ^^^ fnv32 [98]).toNat % numBuckets exQConfig, List.mem_range.mpr (by decide +kernel), rfl⟩)
  have a2 := hk _ (List.mem_map.mpr ⟨0, List.mem_range.mpr (by decide +kernel), rfl⟩)
  have : (found asciiUni exQConfig (documents exHistory) ((fnv32 [99] ^^^ fnv32 [98]).toNat % numBuckets exQConfig)).length ≠
      (found asciiUni exQConfig (documents exHistory) 0).length := by decide +kernel
  exact this (a1.trans a2.symm)

/-- 2.0, the default of the flag -sigma, is in the range of `C56_sigma`. -/
example : |(2 : ℝ)| ≤ 2 ^ 20 := by rw [abs_of_pos (by norm_num)]; norm_num

end Dupi.Props
