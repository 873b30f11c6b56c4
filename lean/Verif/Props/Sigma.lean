import Verif.Proof.Sigma
import Verif.Props.Commands
/-! # -sigma, with any float64: C79 -/

namespace Dupi.Props
open Spec Disk Cmd Fl

section
variable {u : Uni} {J : CfgCodec} {srt : Sorter} {c : Config} (hU : Usable J c) (hsrt : IsSorter srt)
include hU hsrt

/-- what is printed for a threshold, and how it depends on it -/
theorem exactly_of {h : Sessions} {x : Index} {q : QState} (hr : Reading u J srt c h x q) (hf : Fits u c (documents h)) (json : Bool) (grow : Nat → Nat)
    {ff fuel k : Nat} (hff : 2 ^ 32 ≤ ff) (hfuel : 2 ^ 32 + 2 ^ 32 + 2 ^ 32 < fuel) (hk : 2 ^ 32 < k) (N : Int) :
    ∃ out, Cmd.extract json grow x ff fuel k N = .ok out ∧ Exactly u c (documents h) N out := by
  obtain ⟨out, o1, o2, o3, o4, o5⟩ := C39_extract hU hsrt hr hf json grow ff fuel k hff hfuel hk N
  exact ⟨out, o1, o2, o3, o4, o5⟩

omit hU hsrt in
/-- If no bucket has a number of documents between two thresholds, the same is printed. -/
theorem prefix_eq {docs : List Document} {N N' : Int} {out out' : List Blot} (h : Exactly u c docs N out) (h' : Exactly u c docs N' out')
    (hp : out' <+: out) (hb : ∀ b < numBuckets c, 2 ≤ (found u c docs b).length → N ≤ (found u c docs b).length → N' ≤ (found u c docs b).length) : out' = out := by
  obtain ⟨rest, rfl⟩ := hp
  cases rest with
  | nil => simp
  | cons b rest =>
    exfalso
    have h1 := (h.which b.blot).mp (by simp)
    have h2 := (h'.which b.blot).mpr ⟨h1.1, h1.2.1, hb _ h1.1 h1.2.1 h1.2.2⟩
    have h3 := h.nodup
    rw [List.map_append, List.nodup_append] at h3
    exact h3.2.2 _ h2 _ (by simp) rfl

/-- **C79.**  Whatever the value of -sigma (an infinity and NaN included) and whatever the processor makes of the conversion, the extract command does not
fail: it prints precisely the buckets of at least two and at least `N` documents, for a number `N`. -/
theorem C79_always (conv : F64 → Int) (json fused fused' : Bool) {h : Sessions} {x : Index} {q : QState} (hr : Reading u J srt c h x q) (hf : Fits u c (documents h))
    (grow : Nat → Nat) {ff fuel k : Nat} (hff : 2 ^ 32 ≤ ff) (hfuel : 2 ^ 32 + 2 ^ 32 + 2 ^ 32 < fuel) (hk : 2 ^ 32 < k) (σ : F64) :
    ∃ N out, extractF conv json fused fused' grow x ff fuel k σ = some (.ok out) ∧ Exactly u c (documents h) N out := by
  obtain ⟨m, s, v, e1, _⟩ := stats_near hU hsrt fused hr hf
  obtain ⟨out, o1, o2⟩ := exactly_of hU hsrt hr hf json grow hff hfuel hk (thresholdF conv fused' m s σ)
  exact ⟨_, out, by simp only [extractF, e1, Option.bind_eq_bind, Option.bind_some, o1]; rfl, o2⟩

omit hU hsrt in
/-- If a finite value has a threshold in the model without infinities, the threshold here is the same, whatever the conversion does out of its range. -/
theorem C79_same {conv : F64 → Int} (hconv : Converts conv) (json fused fused' : Bool) {x : Index} (grow : Nat → Nat) (ff fuel k : Nat) {σ : ℝ}
    {r : M (List Blot)} (e : extractSigma json fused fused' grow x ff fuel k σ = some r) : extractF conv json fused fused' grow x ff fuel k (.fin σ) = some r := by
  unfold extractSigma at e
  unfold extractF
  cases hb : x.blotStats fused with
  | none => rw [hb] at e; cases e
  | some st =>
    rw [hb] at e
    simp only [Option.bind_eq_bind, Option.bind_some] at e ⊢
    cases ht : threshold fused' st.1 st.2 σ with
    | none => rw [ht] at e; cases e
    | some N =>
      rw [ht] at e
      rw [thresholdF_of_threshold hconv ht]
      exact e

/-- **C79.**  A greater -sigma prints a first part of what a smaller one prints: for any two values between -2^20 and 2^20, on any processor. -/
theorem C79_ordered_partial {conv : F64 → Int} (hconv : Converts conv) (json fused fused' : Bool) {h : Sessions} {x : Index} {q : QState} (hr : Reading u J srt c h x q)
    (hf : Fits u c (documents h)) (grow : Nat → Nat) {ff fuel k : Nat} (hff : 2 ^ 32 ≤ ff) (hfuel : 2 ^ 32 + 2 ^ 32 + 2 ^ 32 < fuel) (hk : 2 ^ 32 < k)
    {σ σ' : ℝ} (hle : σ ≤ σ') (hσ : |σ| ≤ 2 ^ 20) (hσ' : |σ'| ≤ 2 ^ 20) :
    ∃ out out', extractF conv json fused fused' grow x ff fuel k (.fin σ) = some (.ok out) ∧
      extractF conv json fused fused' grow x ff fuel k (.fin σ') = some (.ok out') ∧ out' <+: out := by
  obtain ⟨_, _, out, _, _, e, _⟩ := C56_sigma hU hsrt json fused fused' hr hf grow ff fuel k hff hfuel hk σ hσ
  obtain ⟨_, _, out', _, _, e', _⟩ := C56_sigma hU hsrt json fused fused' hr hf grow ff fuel k hff hfuel hk σ' hσ'
  refine ⟨out, out', C79_same hconv _ _ _ _ _ _ _ e, C79_same hconv _ _ _ _ _ _ _ e', ?_⟩
  obtain ⟨m, s, v, e1, _, _, e4, _⟩ := stats_near hU hsrt fused hr hf
  unfold extractSigma at e e'
  rw [e1] at e e'
  simp only [Option.bind_eq_bind, Option.bind_some] at e e'
  cases ht : threshold fused' m s σ with
  | none => rw [ht] at e; cases e
  | some N =>
  cases ht' : threshold fused' m s σ' with
  | none => rw [ht'] at e'; cases e'
  | some N' =>
    rw [ht] at e
    rw [ht'] at e'
    injection e with e
    injection e' with e'
    have hN : N ≤ N' := by
      have h1 := rounded_mono (cutoffF_mono_fin fused' m e4.pos' hle)
      have a1 := thresholdF_of_threshold convArm64_converts ht
      have a2 := thresholdF_of_threshold convArm64_converts ht'
      have := convArm64_mono (cutoffF_mono_fin fused' m e4.pos' hle)
      unfold thresholdF at a1 a2
      omega
    obtain ⟨out'', g1, g2⟩ := extract_prefix json grow x ff fuel k hN e
    rw [e'] at g1
    injection g1 with g1
    rw [g1]
    exact g2

/-- **C79.**  On a processor whose conversion goes to the nearest integer in the range (arm64), this holds for any two values that are numbers, infinite ones and
those whose product with the deviation overflows included. -/
theorem C79_arm64_partial (json fused fused' : Bool) {h : Sessions} {x : Index} {q : QState} (hr : Reading u J srt c h x q)
    (hf : Fits u c (documents h)) (grow : Nat → Nat) {ff fuel k : Nat} (hff : 2 ^ 32 ≤ ff) (hfuel : 2 ^ 32 + 2 ^ 32 + 2 ^ 32 < fuel) (hk : 2 ^ 32 < k)
    {σ σ' : F64} (hle : Le64 σ σ') :
    ∃ out out', extractF convArm64 json fused fused' grow x ff fuel k σ = some (.ok out) ∧
      extractF convArm64 json fused fused' grow x ff fuel k σ' = some (.ok out') ∧ out' <+: out := by
  obtain ⟨m, s, v, e1, e2, _, e4, e5, _, _⟩ := stats_near hU hsrt fused hr hf
  obtain ⟨out, o1, o2⟩ := exactly_of hU hsrt hr hf json grow hff hfuel hk (thresholdF convArm64 fused' m s σ)
  obtain ⟨out', o1', o2'⟩ := exactly_of hU hsrt hr hf json grow hff hfuel hk (thresholdF convArm64 fused' m s σ')
  refine ⟨out, out', by simp only [extractF, e1, Option.bind_eq_bind, Option.bind_some, o1]; rfl,
    by simp only [extractF, e1, Option.bind_eq_bind, Option.bind_some, o1']; rfl, ?_⟩
  have le_case : thresholdF convArm64 fused' m s σ ≤ thresholdF convArm64 fused' m s σ' → out' <+: out := by
    intro hN
    obtain ⟨out'', g1, g2⟩ := extract_prefix json grow x ff fuel k hN o1
    rw [o1'] at g1
    injection g1 with g1
    rw [g1]
    exact g2
  rcases lt_or_eq_of_le e4.pos' with hs | hs
  · exact le_case (convArm64_mono (cutoffF_mono fused' m hs hle))
  · -- no deviation: all buckets have as many documents as the mean
    subst hs
    have hv : v = 0 := by
      have h1 := e4.lower
      have h2 := rk_pos (65541 + c.numShards.toNat)
      by_contra hv
      exact absurd h1 (not_le.mpr (mul_pos h2 (lt_of_le_of_ne e4.pos (Ne.symm hv))))
    clear e4
    have hD : sd (bucketSizes u c (documents h)) = 0 := le_antisymm (hv ▸ e5) (sd_nonneg _)
    have hz := sd_zero hD
    have hm := near_abs e2 (by norm_num)
    -- the threshold is 0 or that number
    have key : ∀ z : F64, z ≠ .nan → ∀ b < numBuckets c, thresholdF convArm64 fused' m 0 z ≤ (found u c (documents h) b).length := by
      intro z hz0 b hb
      have hmean := hz (found u c (documents h) b).length (List.mem_map.mpr ⟨b, List.mem_range.mpr hb, rfl⟩)
      have hlen : (found u c (documents h) b).length ≤ (documents h).length := List.length_filter_le _ _
      have hids := hf.ids
      rw [← hmean] at hm
      generalize (found u c (documents h) b).length = n at *
      have hn : ((n : ℕ) : ℝ) ≤ ((2 ^ 32 : ℕ) : ℝ) := by exact_mod_cast (show n ≤ 2 ^ 32 by omega)
      push_cast at hn hm
      cases z with
      | nan => exact absurd rfl hz0
      | inf i =>
        have : cutoffF fused' m 0 (.inf i) = .nan := by cases fused' <;> simp [cutoffF, F64.fmaFin, F64.mulFin, F64.finAdd]
        rw [thresholdF, this]
        simp only [F64.rounded, convArm64]
        omega
      | fin y =>
        have : cutoffF fused' m 0 (.fin y) = F64.ofReal m := by
          cases fused' with
          | true => simp [cutoffF, F64.fmaFin]
          | false =>
            have h0 : F64.ofReal 0 = .fin 0 := by simp [F64.ofReal, round_zero]
            simp [cutoffF, F64.mulFin, F64.finAdd, h0]
        rw [thresholdF, this]
        rw [abs_le] at hm
        have hm0 : |m| ≤ 2 ^ 33 := by rw [abs_le]; constructor <;> linarith
        obtain ⟨w, w1, w2⟩ := round_any (x := m) (hm0.trans (pow_le_pow_right₀ (by norm_num) (by norm_num)))
        have ht : ((1 : ℝ) / 2) ^ 1000 ≤ 1 / 8 := by
          calc ((1 : ℝ) / 2) ^ 1000 ≤ (1 / 2) ^ 3 := pow_le_pow_of_le_one (by norm_num) (by norm_num) (by norm_num)
            _ = 1 / 8 := by norm_num
        have he : eps * |m| ≤ 1 / 8 := by
          calc eps * |m| ≤ eps * 2 ^ 33 := by have := eps_pos; gcongr
            _ ≤ 1 / 8 := by unfold eps; norm_num
        have hw : F64.ofReal m = .fin w := by unfold F64.ofReal; rw [w1]
        rw [hw]
        simp only [F64.rounded, convArm64, trunc_int]
        have hr' := mathRound_err w
        generalize ((1 : ℝ) / 2) ^ 1000 = t at *
        rw [abs_le] at hr' w2
        have hlt : (mathRound w : ℝ) < (n : ℝ) + 1 := by linarith
        have : mathRound w < (n : ℤ) + 1 := by exact_mod_cast hlt
        omega
    have hle' := key σ (by cases hle <;> simp)
    have hle'' := key σ' (by cases hle <;> simp)
    rcases le_total (thresholdF convArm64 fused' m 0 σ) (thresholdF convArm64 fused' m 0 σ') with g | g
    · exact le_case g
    · obtain ⟨out'', g1, g2⟩ := extract_prefix json grow x ff fuel k g o1'
      rw [o1] at g1
      injection g1 with g1
      subst g1
      have := prefix_eq o2' o2 g2 fun b hb _ _ => hle' b hb
      rw [this]

omit hU hsrt in
theorem high_conv {z : F64} (h : Le64 (.fin (2 ^ 63)) z) : convAmd64 z.rounded = -2 ^ 63 := by
  cases h with
  | high _ => rfl
  | @fin _ w h =>
    have h1 := mathRound_mono h
    rw [show ((2 : ℝ) ^ 63) = ((2 ^ 63 : ℤ) : ℝ) by norm_num, mathRound_int] at h1
    simp only [F64.rounded, convAmd64, trunc_int]
    exact if_neg (by omega)

omit hU hsrt in
theorem low_conv {z : F64} (h : Le64 z (.fin (-2 ^ 63))) : convAmd64 z.rounded = -2 ^ 63 := by
  cases h with
  | low _ => rfl
  | @fin w _ h =>
    have h1 := mathRound_mono h
    rw [show (-(2 : ℝ) ^ 63) = ((-2 ^ 63 : ℤ) : ℝ) by norm_num, mathRound_int] at h1
    simp only [F64.rounded, convAmd64, trunc_int]
    split <;> omega

omit hU hsrt in
theorem ofReal_pow (k : ℤ) (n : ℕ) (hk : |k| < 2 ^ 53) (hn : n ≤ 900) : F64.ofReal (k * 2 ^ n) = .fin (k * 2 ^ n) := by
  have := round_exact k n hk (by omega) (by
    rw [zpow_natCast, abs_mul, abs_of_pos (show (0 : ℝ) < 2 ^ n from pow_pos (by norm_num) _)]
    have h1 : |(k : ℝ)| < 2 ^ 53 := by exact_mod_cast hk
    calc |(k : ℝ)| * 2 ^ n < 2 ^ 53 * 2 ^ n := by have : (0 : ℝ) < 2 ^ n := pow_pos (by norm_num) _; gcongr
      _ = 2 ^ (53 + n) := by rw [pow_add]
      _ ≤ 2 ^ 1024 := pow_le_pow_right₀ (by norm_num) (by omega))
  rw [zpow_natCast] at this
  unfold F64.ofReal
  rw [this]

omit hU hsrt in
theorem Le64.trans' {a : ℝ} {z z' : F64} (h : Le64 (.fin a) z) (h' : Le64 z z') : Le64 (.fin a) z' := by
  cases h with
  | fin h => cases h' with
    | fin h' => exact .fin (h.trans h')
    | high _ => exact .high _
  | high _ => cases h'; exact .high _

omit hU hsrt in
theorem Le64.trans'' {a : ℝ} {z z' : F64} (h : Le64 z z') (h' : Le64 z' (.fin a)) : Le64 z (.fin a) := by
  cases h' with
  | fin h' => cases h with
    | fin h => exact .fin (h.trans h')
    | low _ => exact .low _
  | low _ => cases h; exact .low _

omit hU hsrt in
/-- on amd64 the threshold for a value far out is the least integer -/
theorem threshold_far (fused : Bool) {m s : ℝ} (hm0 : 0 ≤ m) (hm : m ≤ 2 ^ 40) {σ : F64} (hσ : ∀ y, σ = .fin y → 2 ^ 64 ≤ |y| * s) :
    thresholdF convAmd64 fused m s σ = -2 ^ 63 := by
  cases σ with
  | nan => unfold thresholdF cutoffF; cases fused <;> rfl
  | inf n =>
    unfold thresholdF cutoffF
    by_cases h0 : s = 0
    · cases fused <;> simp [F64.fmaFin, F64.mulFin, F64.finAdd, h0, F64.rounded, convAmd64]
    · cases fused <;> simp [F64.fmaFin, F64.mulFin, F64.finAdd, h0, F64.rounded, convAmd64]
  | fin y =>
    have hy := hσ y rfl
    have p1 : F64.ofReal (2 ^ 64) = .fin (2 ^ 64) := by simpa using ofReal_pow 1 64 (by norm_num) (by norm_num)
    have p2 : F64.ofReal (-2 ^ 64) = .fin (-2 ^ 64) := by simpa using ofReal_pow (-1) 64 (by norm_num) (by norm_num)
    have p3 : F64.ofReal (2 ^ 63) = .fin (2 ^ 63) := by simpa using ofReal_pow 1 63 (by norm_num) (by norm_num)
    have p4 : F64.ofReal (-2 ^ 63) = .fin (-2 ^ 63) := by simpa using ofReal_pow (-1) 63 (by norm_num) (by norm_num)
    have hc : (2 : ℝ) ^ 40 + -2 ^ 64 ≤ -2 ^ 63 := by norm_num
    have hc' : (2 : ℝ) ^ 63 ≤ 2 ^ 64 := by norm_num
    rcases abs_cases y with ⟨g, _⟩ | ⟨g, _⟩
    · rw [g] at hy
      apply high_conv
      have h1 : Le64 (.fin (2 ^ 63)) (F64.ofReal (y * s + m)) := by rw [← p3]; exact F64.ofReal_mono (by linarith)
      cases fused with
      | true => exact h1
      | false =>
        have h2 : Le64 (.fin (2 ^ 64)) (F64.ofReal (y * s)) := by rw [← p1]; exact F64.ofReal_mono (by linarith)
        have h3 := F64.finAdd_mono m h2
        refine Le64.trans' ?_ h3
        show Le64 _ (F64.ofReal _)
        rw [← p3]
        exact F64.ofReal_mono (by linarith)
    · rw [g, neg_mul] at hy
      apply low_conv
      have h1 : Le64 (F64.ofReal (y * s + m)) (.fin (-2 ^ 63)) := by rw [← p4]; exact F64.ofReal_mono (by linarith)
      cases fused with
      | true => exact h1
      | false =>
        have h2 : Le64 (F64.ofReal (y * s)) (.fin (-2 ^ 64)) := by rw [← p2]; exact F64.ofReal_mono (by linarith)
        have h3 := F64.finAdd_mono m h2
        refine Le64.trans'' h3 ?_
        show Le64 (F64.ofReal _) _
        rw [← p4]
        exact F64.ofReal_mono (by linarith)

/-- **C79** is false on amd64: for NaN, for both infinities and for every value, positive or negative, whose product with the deviation is 2^65 or more, every
bucket of two documents or more is printed. -/
theorem C79_amd64 (json fused fused' : Bool) {h : Sessions} {x : Index} {q : QState} (hr : Reading u J srt c h x q)
    (hf : Fits u c (documents h)) (grow : Nat → Nat) {ff fuel k : Nat} (hff : 2 ^ 32 ≤ ff) (hfuel : 2 ^ 32 + 2 ^ 32 + 2 ^ 32 < fuel) (hk : 2 ^ 32 < k)
    {σ : F64} (hσ : ∀ y, σ = .fin y → 2 ^ 65 ≤ |y| * sd (bucketSizes u c (documents h))) :
    ∃ out, extractF convAmd64 json fused fused' grow x ff fuel k σ = some (.ok out) ∧ Exactly u c (documents h) 2 out := by
  obtain ⟨m, s, v, e1, e2, _, e4, e5, _, _, _, e9⟩ := stats_near hU hsrt fused hr hf
  have hn' := hU.shardsSmall
  obtain ⟨out, o1, o2⟩ := exactly_of hU hsrt hr hf json grow hff hfuel hk (thresholdF convAmd64 fused' m s σ)
  have hs : sd (bucketSizes u c (documents h)) / 2 ≤ s := by
    have h1 := e4.lower
    have h2 : 1 / 2 * v ≤ _ := mul_le_mul_of_nonneg_right (rk_half (show 65541 + c.numShards.toNat ≤ 2 ^ 52 by omega)) e4.pos
    have h3 := h2.trans h1
    clear h1 h2 e4
    linarith
  have hN := threshold_far fused' e9.pos e9.le (σ := σ) (fun y hy => by
    have h1 := hσ y hy
    have h2 := mul_le_mul_of_nonneg_left hs (abs_nonneg y)
    have e : (2 : ℝ) ^ 65 = 2 * 2 ^ 64 := by norm_num
    refine le_trans ?_ h2
    rw [← mul_div_assoc, le_div_iff₀ (by norm_num), mul_comm, ← e]
    exact h1)
  refine ⟨out, by simp only [extractF, e1, Option.bind_eq_bind, Option.bind_some, o1]; rfl, o2.nodup, fun b => ?_, o2.whole, o2.sorted⟩
  rw [o2.which, hN]
  constructor
  · rintro ⟨a, b, _⟩; exact ⟨a, b, by omega⟩
  · rintro ⟨a, b, _⟩; exact ⟨a, b, by omega⟩

omit hU hsrt in
/-- two different numbers: the deviation is not small -/
theorem sd_lower {l : List ℕ} {a b : ℕ} (ha : a ∈ l) (hb : b ∈ l) (hab : a ≠ b) (hl : l.length ≤ 2 ^ 48) : (1 / 2) ^ 25 ≤ sd l := by
  have hlen : 0 < (l.length : ℝ) := by exact_mod_cast List.length_pos_of_mem ha
  have hl' : (l.length : ℝ) ≤ 2 ^ 48 := by exact_mod_cast hl
  have one : ∀ n ∈ l, ((n : ℝ) - mean l) ^ 2 ≤ (l.map fun n : ℕ => ((n : ℝ) - mean l) ^ 2).sum := by
    intro n hn
    refine List.single_le_sum ?_ _ (List.mem_map.mpr ⟨n, hn, rfl⟩)
    intro x hx
    obtain ⟨n, _, rfl⟩ := List.mem_map.mp hx
    positivity
  have h1 := one a ha
  have h2 := one b hb
  have hd : 1 ≤ |(a : ℝ) - b| := by
    have : (1 : ℤ) ≤ |(a : ℤ) - b| := Int.one_le_abs (by omega)
    exact_mod_cast this
  have hq : 1 / 4 ≤ (l.map fun n : ℕ => ((n : ℝ) - mean l) ^ 2).sum := by
    generalize (l.map fun n : ℕ => ((n : ℝ) - mean l) ^ 2).sum = S at *
    generalize mean l = μ at *
    have h3 : 1 ≤ ((a : ℝ) - b) ^ 2 := by rw [← sq_abs]; nlinarith
    nlinarith [sq_nonneg ((a : ℝ) - μ + (b - μ))]
  unfold sd
  apply Real.le_sqrt_of_sq_le
  rw [le_div_iff₀ hlen]
  calc (((1 : ℝ) / 2) ^ 25) ^ 2 * l.length ≤ ((1 / 2) ^ 25) ^ 2 * 2 ^ 48 := by gcongr
    _ = 1 / 4 := by norm_num
    _ ≤ _ := hq

/-- **C79** is false on amd64, of every index with a bucket of at least two documents and another one with a different number: there is a value of
-sigma (a power of two) for which nothing is printed, though for every value from some point on all such buckets are printed. -/
theorem C79_false_amd64 (json fused fused' : Bool) {h : Sessions} {x : Index} {q : QState} (hr : Reading u J srt c h x q)
    (hf : Fits u c (documents h)) (grow : Nat → Nat) {ff fuel k : Nat} (hff : 2 ^ 32 ≤ ff) (hfuel : 2 ^ 32 + 2 ^ 32 + 2 ^ 32 < fuel) (hk : 2 ^ 32 < k)
    {b : UInt32} {b' : Nat} (hb : b.toNat < numBuckets c) (hb' : b' < numBuckets c) (h2 : 2 ≤ (found u c (documents h) b.toNat).length)
    (hne : (found u c (documents h) b.toNat).length ≠ (found u c (documents h) b').length) :
    ∃ σ : ℝ, Is64 σ ∧ 0 < σ ∧ extractF convAmd64 json fused fused' grow x ff fuel k (.fin σ) = some (.ok []) ∧
      ∀ σ', 2 ^ 100 ≤ σ' → ∃ out, extractF convAmd64 json fused fused' grow x ff fuel k (.fin σ') = some (.ok out) ∧ Exactly u c (documents h) 2 out ∧ out ≠ [] := by
  obtain ⟨m, s, v, e1, e2, _, e4, e5, e6, _, e8, e9⟩ := stats_near hU hsrt fused hr hf
  have hn' := hU.shardsSmall
  have hlen : (bucketSizes u c (documents h)).length ≤ 2 ^ 48 := by
    rw [bucketSizes, List.length_map, List.length_range, numBuckets]; omega
  have hsd := sd_lower (l := bucketSizes u c (documents h)) (List.mem_map.mpr ⟨b.toNat, List.mem_range.mpr hb, rfl⟩)
    (List.mem_map.mpr ⟨b', List.mem_range.mpr hb', rfl⟩) hne hlen
  have hz := no_spread hU (near_abs e2 (by norm_num)) e6 e4.pos
  have hm := near_abs e2 (by norm_num)
  have hμ := mean_nonneg (bucketSizes u c (documents h))
  have hsd0 : 0 < sd (bucketSizes u c (documents h)) := lt_of_lt_of_le (by positivity) hsd
  have hmm : mean (bucketSizes u c (documents h)) ≤ 2 ^ 41 := by
    have h1 := e2.lower
    have h2 := rk_half (show 2 ≤ 2 ^ 52 by norm_num)
    have h3 := mul_le_mul_of_nonneg_right h2 hμ
    have h4 := e9.le
    have : (2 : ℝ) ^ 41 = 2 * 2 ^ 40 := by rw [← pow_succ']
    linarith
  obtain ⟨j, j1, j2⟩ := exists_mem_Ico_zpow (y := (2 : ℝ)) (x := 2 ^ 34 / sd (bucketSizes u c (documents h))) (by positivity) (by norm_num)
  rw [zpow_add_one₀ (by norm_num)] at j2
  have hj : -1074 ≤ j := by
    by_contra hc
    have h1 : (2 : ℝ) ^ j * 2 ≤ 2 ^ (-1000 : ℤ) * 2 := by
      have : (2 : ℝ) ^ j ≤ 2 ^ (-1000 : ℤ) := zpow_le_zpow_right₀ (by norm_num) (by omega)
      linarith
    have h2 : (2 : ℝ) ^ (-1000 : ℤ) ≤ 2 ^ (-10 : ℤ) := zpow_le_zpow_right₀ (by norm_num) (by norm_num)
    have h3 : 2 ^ 34 / 2 ^ 40 ≤ 2 ^ 34 / sd (bucketSizes u c (documents h)) := by
      have : sd (bucketSizes u c (documents h)) ≤ 2 ^ 40 := e5.trans e8
      gcongr
    have h4 : (2 : ℝ) ^ (-10 : ℤ) * 2 < 2 ^ 34 / 2 ^ 40 := by norm_num
    have h5 : (2 : ℝ) ^ (-1000 : ℤ) * 2 ≤ 2 ^ (-10 : ℤ) * 2 := mul_le_mul_of_nonneg_right h2 (by norm_num)
    exact absurd (h3.trans_lt (j2.trans_le (h1.trans h5))) (not_lt.mpr h4.le)
  have hj0 : (0 : ℝ) < 2 ^ j := by positivity
  refine ⟨2 ^ j * 2, ⟨2, j, by norm_num, hj, by push_cast; ring⟩, by positivity, ?_, ?_⟩
  · have hσ : |(2 : ℝ) ^ j * 2| = 2 ^ j * 2 := abs_of_pos (by positivity)
    rw [div_lt_iff₀ hsd0] at j2
    rw [le_div_iff₀ hsd0] at j1
    have hσ2 : (2 : ℝ) ^ j ≤ 2 ^ 59 := by
      have h1 : (2 : ℝ) ^ j * (1 / 2) ^ 25 ≤ 2 ^ j * sd (bucketSizes u c (documents h)) := by gcongr
      have h2 := h1.trans j1
      have h3 : (2 : ℝ) ^ j = 2 ^ j * (1 / 2) ^ 25 * 2 ^ 25 := by rw [mul_assoc, ← mul_pow]; norm_num
      rw [h3]
      calc _ ≤ (2 : ℝ) ^ 34 * 2 ^ 25 := by gcongr
        _ = 2 ^ 59 := by norm_num
    have hv1 : (2 : ℝ) ^ j * v ≤ 2 ^ 34 + 2 ^ 49 := by
      have hv : v ≤ sd (bucketSizes u c (documents h)) + 2 ^ 41 / 2 ^ 51 := by
        push_cast at hm
        have : (2 : ℝ) / 2 ^ 52 * mean (bucketSizes u c (documents h)) ≤ 2 / 2 ^ 52 * 2 ^ 41 := by gcongr
        have e : (2 : ℝ) / 2 ^ 52 * 2 ^ 41 = 2 ^ 41 / 2 ^ 51 := by norm_num
        linarith
      calc (2 : ℝ) ^ j * v ≤ 2 ^ j * (sd (bucketSizes u c (documents h)) + 2 ^ 41 / 2 ^ 51) := by gcongr
        _ = 2 ^ j * sd (bucketSizes u c (documents h)) + 2 ^ j * (2 ^ 41 / 2 ^ 51) := by ring
        _ ≤ 2 ^ 34 + 2 ^ 59 * (2 ^ 41 / 2 ^ 51) := by gcongr
        _ = 2 ^ 34 + 2 ^ 49 := by norm_num
    obtain ⟨N, n1, n2⟩ := threshold_near fused' (K := 65541 + c.numShards.toNat) (by omega) (by omega) e2 e4 e9 hz (σ := 2 ^ j * 2) (by
      rw [hσ]
      have : (2 : ℝ) * (2 ^ 34 + 2 ^ 49) ≤ 2 ^ 60 := by norm_num
      linarith [mul_right_comm ((2 : ℝ) ^ j) 2 v])
    obtain ⟨out, o1, o2⟩ := exactly_of hU hsrt hr hf json grow hff hfuel hk N
    have hbig : 2 ^ 32 ≤ N := by
      rw [hσ] at n2
      have hK : ((65541 + c.numShards.toNat : ℕ) + 2 : ℝ) / 2 ^ 52 ≤ 1 / 2 := by
        rw [div_le_iff₀ (by positivity)]
        have : ((65541 + c.numShards.toNat + 2 : ℕ) : ℝ) ≤ ((2 ^ 51 : ℕ) : ℝ) := by exact_mod_cast (show 65541 + c.numShards.toNat + 2 ≤ 2 ^ 51 by omega)
        push_cast at this ⊢
        linarith
      have hv2 : (2 : ℝ) ^ 34 ≤ 2 ^ j * 2 * v := by
        have : (2 : ℝ) ^ j * 2 * sd (bucketSizes u c (documents h)) ≤ 2 ^ j * 2 * v := by gcongr
        linarith
      have h0 : 0 ≤ mean (bucketSizes u c (documents h)) + 2 ^ j * 2 * v := by linarith [show (0 : ℝ) < 2 ^ 34 by norm_num]
      have h1 := mul_le_mul_of_nonneg_right hK h0
      rw [abs_le] at n2
      have h3 := n2.1
      clear e4
      have : ((2 ^ 32 : ℤ) : ℝ) ≤ (N : ℝ) := by
        push_cast
        have : (2 : ℝ) ^ 32 + 1 / 2 ≤ 2 ^ 34 / 2 := by norm_num
        linarith
      exact_mod_cast this
    have hout : out = [] := by
      cases out with
      | nil => rfl
      | cons a out =>
        have := (o2.which a.blot).mp (by simp)
        have hl : (found u c (documents h) a.blot.toNat).length ≤ (documents h).length := List.length_filter_le _ _
        have := hf.ids
        omega
    subst hout
    simp only [extractF, e1, Option.bind_eq_bind, Option.bind_some, thresholdF_of_threshold convAmd64_converts n1, o1]
    rfl
  · intro σ' hσ'
    obtain ⟨out, o1, o2⟩ := C79_amd64 hU hsrt json fused fused' hr hf grow hff hfuel hk (σ := .fin σ') (by
      intro y hy
      rw [F64.fin.injEq] at hy
      subst hy
      have h0 : (0 : ℝ) < 2 ^ 100 := by positivity
      rw [abs_of_pos (lt_of_lt_of_le h0 hσ')]
      calc (2 : ℝ) ^ 65 ≤ 2 ^ 75 := pow_le_pow_right₀ (by norm_num) (by norm_num)
        _ = 2 ^ (75 + 25) * (1 / 2) ^ 25 := by rw [pow_add, mul_assoc, ← mul_pow]; norm_num
        _ = 2 ^ 100 * (1 / 2) ^ 25 := rfl
        _ ≤ σ' * sd (bucketSizes u c (documents h)) := by gcongr)
    refine ⟨out, o1, o2, ?_⟩
    rintro rfl
    simpa using (o2.which b).mpr ⟨hb, h2, by omega⟩

end

/-! ## Whole runs -/

/-- the value of -sigma -/
noncomputable def sigmaF (S : Strconv F64) (opts : List Opt) : F64 := ((valueOf opts sigmaB).bind S.parseFloat).getD (.fin 2)

/-- what is written for the blots -/
def output (opts : List Opt) (out : List Blot) : Bytes :=
  if isOn opts jsonB then extractJson out else if isOn opts [98] then extractBlots out else extractText out

section
variable {u : Uni} {J : CfgCodec} {srt : Sorter} (hsrt : IsSorter srt) (conv : F64 → Int) (S : Strconv F64) (join : Bytes → Bytes → Bytes) (fused fused' : Bool)
  (grow : Nat → Nat) {ff fuel k : Nat} (hff : 2 ^ 32 ≤ ff) (hfuel : 2 ^ 32 + 2 ^ 32 + 2 ^ 32 < fuel) (hk : 2 ^ 32 < k)

/-- a run of the extract command is a call of `extractF` on the index at the promised root -/
theorem extractRunF_eq {d : Disk} {gopts opts : List Opt} (hg : RootOpts gopts) (ho : ∀ o ∈ opts, ExtractOpt S o) {l rest : List Bytes} (hl : Rest l rest) (p : Proc)
    {x : Index} (hx : d.openIndex J srt p.cwd (promised join p.env gopts) = .ok x) {out : List Blot}
    (he : extractF conv (isOn opts jsonB) fused fused' grow x ff fuel k (sigmaF S opts) = some (.ok out)) :
    extractRunF conv S join J srt fused fused' grow ff fuel k d p (gopts.flatMap Opt.args ++ Verb.extract.name :: (opts.flatMap Opt.args ++ l)) =
      some (.ok (output opts out)) := by
  have hp := Flag.parse_opts (fun o h => (ho o h).fine) hl
  unfold extractRunF
  have e1 : lastSigmaF S (opts.map fun o => (o.name, o.value)) = sigmaF S opts := by
    unfold lastSigmaF sigmaF; rw [Flag.last_valueOf]; rfl
  have e2 (n : Bytes) : Flag.lastBool (opts.map fun o => (o.name, o.value)) n = isOn opts n := by
    unfold Flag.lastBool isOn; rw [Flag.last_valueOf]
  have hj' : isOn opts [106, 115, 111, 110] = isOn opts jsonB := rfl
  simp only [C57_runs_partial join p.env hg.1 hg.2 .extract, hp, e1, e2, hj', hx, he, Option.map_some, bind, Except.bind]
  rfl

include hsrt hff hfuel hk

/-- **C79**, whole runs.  After any operations on a disk, `dupi extract` with any value of -sigma prints precisely the buckets of at least two and at least `N`
documents, for a number `N`. -/
theorem C79_run_always {ops : List Disk.Op} {d : Disk} (hm : ∀ op ∈ ops, Made J op) (hs : Steps u J srt Disk.empty ops d)
    {gopts opts : List Opt} (hg : RootOpts gopts) (ho : ∀ o ∈ opts, ExtractOpt S o) {l rest : List Bytes} (hl : Rest l rest) (p : Proc)
    {c : Config} {h : Sessions} (hc : catalogue ops (Spec.place p.cwd (promised join p.env gopts)) = some (c, h)) (hf : Fits u c (documents h)) :
    ∃ N out, extractRunF conv S join J srt fused fused' grow ff fuel k d p (gopts.flatMap Opt.args ++ Verb.extract.name :: (opts.flatMap Opt.args ++ l)) =
        some (.ok (output opts out)) ∧ Exactly u c (documents h) N out := by
  have h1 := C52_open hm hs p.cwd (promised join p.env gopts)
  rw [hc] at h1
  obtain ⟨x, q, h2, h3, _⟩ := h1 hsrt hf
  obtain ⟨_, _, _, hU, _⟩ := (Steps.shows hm hs).held hc
  obtain ⟨N, out, o1, o2⟩ := C79_always hU hsrt conv (isOn opts jsonB) fused fused' h3 hf grow hff hfuel hk (sigmaF S opts)
  exact ⟨N, out, extractRunF_eq conv S join fused fused' grow hg ho hl p h2 o1, o2⟩

omit hsrt hff hfuel hk in
theorem output_prefix {opts opts' : List Opt} (h1 : isOn opts' jsonB = isOn opts jsonB) (h2 : isOn opts' [98] = isOn opts [98]) {out out' : List Blot} (h : out' <+: out) :
    output opts' out' <+: output opts out := by
  obtain ⟨rest, rfl⟩ := h
  unfold output extractJson extractBlots extractText
  rw [h1, h2]
  simp only [List.flatMap_append]
  split
  · exact List.prefix_append _ _
  · split <;> exact List.prefix_append _ _

/-- **C79**, whole runs.  Of two runs that differ in the value of -sigma only, between -2^20 and 2^20, the one with the greater value writes a first part of what the
other one writes. -/
theorem C79_run_ordered_partial (hconv : Converts conv) {ops : List Disk.Op} {d : Disk} (hm : ∀ op ∈ ops, Made J op) (hs : Steps u J srt Disk.empty ops d)
    {gopts opts opts' : List Opt} (hg : RootOpts gopts) (ho : ∀ o ∈ opts, ExtractOpt S o) (ho' : ∀ o ∈ opts', ExtractOpt S o)
    (hj : isOn opts' jsonB = isOn opts jsonB) (hb : isOn opts' [98] = isOn opts [98]) {l rest l' rest' : List Bytes} (hl : Rest l rest) (hl' : Rest l' rest') (p : Proc)
    {c : Config} {h : Sessions} (hc : catalogue ops (Spec.place p.cwd (promised join p.env gopts)) = some (c, h)) (hf : Fits u c (documents h))
    {σ σ' : ℝ} (h1 : sigmaF S opts = .fin σ) (h2 : sigmaF S opts' = .fin σ') (hle : σ ≤ σ') (hσ : |σ| ≤ 2 ^ 20) (hσ' : |σ'| ≤ 2 ^ 20) :
    ∃ t t', extractRunF conv S join J srt fused fused' grow ff fuel k d p (gopts.flatMap Opt.args ++ Verb.extract.name :: (opts.flatMap Opt.args ++ l)) = some (.ok t) ∧
      extractRunF conv S join J srt fused fused' grow ff fuel k d p (gopts.flatMap Opt.args ++ Verb.extract.name :: (opts'.flatMap Opt.args ++ l')) = some (.ok t') ∧
      t' <+: t := by
  have g1 := C52_open hm hs p.cwd (promised join p.env gopts)
  rw [hc] at g1
  obtain ⟨x, q, g2, g3, _⟩ := g1 hsrt hf
  obtain ⟨_, _, _, hU, _⟩ := (Steps.shows hm hs).held hc
  obtain ⟨out, out', o1, o2, o3⟩ := C79_ordered_partial hU hsrt hconv (isOn opts jsonB) fused fused' g3 hf grow hff hfuel hk hle hσ hσ'
  rw [← h1] at o1
  rw [← h2, ← hj] at o2
  exact ⟨_, _, extractRunF_eq conv S join fused fused' grow hg ho hl p g2 o1, extractRunF_eq conv S join fused fused' grow hg ho' hl' p g2 o2,
    output_prefix hj hb o3⟩

/-- and on arm64 this holds for any two numbers. -/
theorem C79_run_arm64_partial {ops : List Disk.Op} {d : Disk} (hm : ∀ op ∈ ops, Made J op) (hs : Steps u J srt Disk.empty ops d)
    {gopts opts opts' : List Opt} (hg : RootOpts gopts) (ho : ∀ o ∈ opts, ExtractOpt S o) (ho' : ∀ o ∈ opts', ExtractOpt S o)
    (hj : isOn opts' jsonB = isOn opts jsonB) (hb : isOn opts' [98] = isOn opts [98]) {l rest l' rest' : List Bytes} (hl : Rest l rest) (hl' : Rest l' rest') (p : Proc)
    {c : Config} {h : Sessions} (hc : catalogue ops (Spec.place p.cwd (promised join p.env gopts)) = some (c, h)) (hf : Fits u c (documents h))
    (hle : Le64 (sigmaF S opts) (sigmaF S opts')) :
    ∃ t t', extractRunF convArm64 S join J srt fused fused' grow ff fuel k d p (gopts.flatMap Opt.args ++ Verb.extract.name :: (opts.flatMap Opt.args ++ l)) =
        some (.ok t) ∧
      extractRunF convArm64 S join J srt fused fused' grow ff fuel k d p (gopts.flatMap Opt.args ++ Verb.extract.name :: (opts'.flatMap Opt.args ++ l')) =
        some (.ok t') ∧ t' <+: t := by
  have g1 := C52_open hm hs p.cwd (promised join p.env gopts)
  rw [hc] at g1
  obtain ⟨x, q, g2, g3, _⟩ := g1 hsrt hf
  obtain ⟨_, _, _, hU, _⟩ := (Steps.shows hm hs).held hc
  obtain ⟨out, out', o1, o2, o3⟩ := C79_arm64_partial hU hsrt (isOn opts jsonB) fused fused' g3 hf grow hff hfuel hk hle
  rw [← hj] at o2
  exact ⟨_, _, extractRunF_eq convArm64 S join fused fused' grow hg ho hl p g2 o1, extractRunF_eq convArm64 S join fused fused' grow hg ho' hl' p g2 o2,
    output_prefix hj hb o3⟩

/-- On amd64 `-sigma Inf`, `-sigma NaN` and `-sigma -Inf` print every bucket of two documents or more. -/
theorem C79_run_amd64 {ops : List Disk.Op} {d : Disk} (hm : ∀ op ∈ ops, Made J op) (hs : Steps u J srt Disk.empty ops d)
    {gopts opts : List Opt} (hg : RootOpts gopts) (ho : ∀ o ∈ opts, ExtractOpt S o) {l rest : List Bytes} (hl : Rest l rest) (p : Proc)
    {c : Config} {h : Sessions} (hc : catalogue ops (Spec.place p.cwd (promised join p.env gopts)) = some (c, h)) (hf : Fits u c (documents h))
    (hσ : ∀ y, sigmaF S opts = .fin y → 2 ^ 65 ≤ |y| * sd (bucketSizes u c (documents h))) :
    ∃ out, extractRunF convAmd64 S join J srt fused fused' grow ff fuel k d p (gopts.flatMap Opt.args ++ Verb.extract.name :: (opts.flatMap Opt.args ++ l)) =
        some (.ok (output opts out)) ∧ Exactly u c (documents h) 2 out := by
  have h1 := C52_open hm hs p.cwd (promised join p.env gopts)
  rw [hc] at h1
  obtain ⟨x, q, h2, h3, _⟩ := h1 hsrt hf
  obtain ⟨_, _, _, hU, _⟩ := (Steps.shows hm hs).held hc
  obtain ⟨out, o1, o2⟩ := C79_amd64 hU hsrt (isOn opts jsonB) fused fused' h3 hf grow hff hfuel hk hσ
  exact ⟨out, extractRunF_eq convAmd64 S join fused fused' grow hg ho hl p h2 o1, o2⟩

end

/-! ## Examples -/

/-- an index with two documents: nothing is printed for a value of -sigma, and something for all that are great enough -/
theorem C79_false_ex : ∃ x q, Reading asciiUni ⟨fun _ => [], fun _ => .ok exQConfig⟩ mergeSorter exQConfig exHistory x q ∧
    ∃ σ : ℝ, Is64 σ ∧ 0 < σ ∧ extractF convAmd64 false false false (fun n => n) x (2 ^ 32) (2 ^ 40) (2 ^ 33) (.fin σ) = some (.ok []) ∧
      ∀ σ', 2 ^ 100 ≤ σ' → ∃ out, extractF convAmd64 false false false (fun n => n) x (2 ^ 32) (2 ^ 40) (2 ^ 33) (.fin σ') = some (.ok out) ∧
        Exactly asciiUni exQConfig (documents exHistory) 2 out ∧ out ≠ [] := by
  obtain ⟨x, q, hr⟩ := exReading
  refine ⟨x, q, hr, ?_⟩
  exact C79_false_amd64 exUsable mergeSorter_isSorter false false false hr exFits (fun n => n) (by norm_num) (by norm_num) (by norm_num)
    (b := (fnv32 [99] ^^^ fnv32 [98]) % 196608) (b' := 0) (by decide +kernel) (by decide +kernel) (by decide +kernel) (by decide +kernel)

/-- C79_arm64_partial is about something: for -Inf a blot is printed, for Inf none -/
example : ∃ x q, Reading asciiUni ⟨fun _ => [], fun _ => .ok exQConfig⟩ mergeSorter exQConfig exHistory x q ∧
    ∃ σ σ' : F64, Le64 σ σ' ∧ ∃ out, extractF convArm64 false false false (fun n => n) x (2 ^ 32) (2 ^ 40) (2 ^ 33) σ = some (.ok out) ∧ out ≠ [] ∧
      extractF convArm64 false false false (fun n => n) x (2 ^ 32) (2 ^ 40) (2 ^ 33) σ' = some (.ok []) := by
  obtain ⟨x, q, hr⟩ := exReading
  obtain ⟨m, s, h1, h2⟩ := C55_flat exUsable mergeSorter_isSorter false hr exFits exSum
  have hs : s ≠ 0 := by
    intro h0
    obtain ⟨k, hk⟩ := h2.mp h0
    have a1 := hk _ (List.mem_map.mpr ⟨(fnv32 [99] ^^^ fnv32 [98]).toNat % numBuckets exQConfig, List.mem_range.mpr (by decide +kernel), rfl⟩)
    have a2 := hk _ (List.mem_map.mpr ⟨0, List.mem_range.mpr (by decide +kernel), rfl⟩)
    have : (found asciiUni exQConfig (documents exHistory) ((fnv32 [99] ^^^ fnv32 [98]).toNat % numBuckets exQConfig)).length ≠
        (found asciiUni exQConfig (documents exHistory) 0).length := by decide +kernel
    exact this (a1.trans a2.symm)
  obtain ⟨m', s', v, e1, _, _, e4, _⟩ := stats_near exUsable mergeSorter_isSorter false hr exFits
  rw [h1] at e1
  injection e1 with e1
  injection e1 with e1 e2
  subst e1 e2
  have hpos := e4.pos'
  have hc (n : Bool) : thresholdF convArm64 false m s (.inf n) = if n then -2 ^ 63 else 2 ^ 63 - 1 := by
    cases n <;> simp [thresholdF, cutoffF, F64.mulFin, F64.finAdd, hs, not_lt.mpr hpos, F64.rounded, convArm64]
  obtain ⟨out, o1, o2⟩ := exactly_of exUsable mergeSorter_isSorter hr exFits false (fun n => n) (ff := 2 ^ 32) (fuel := 2 ^ 40) (k := 2 ^ 33) (by norm_num) (by norm_num)
    (by norm_num) (-2 ^ 63)
  obtain ⟨out', o1', o2'⟩ := exactly_of exUsable mergeSorter_isSorter hr exFits false (fun n => n) (ff := 2 ^ 32) (fuel := 2 ^ 40) (k := 2 ^ 33) (by norm_num) (by norm_num)
    (by norm_num) (2 ^ 63 - 1)
  have hnil : out' = [] := by
    cases out' with
    | nil => rfl
    | cons a l =>
      have := (o2'.which a.blot).mp (by simp)
      have hl : (found asciiUni exQConfig (documents exHistory) a.blot.toNat).length ≤ (documents exHistory).length := List.length_filter_le _ _
      have := exFits.ids
      omega
  subst hnil
  refine ⟨x, q, hr, .inf true, .inf false, .infs, out, ?_, ?_, ?_⟩
  · simp only [extractF, h1, Option.bind_eq_bind, Option.bind_some, hc, if_true, o1]; rfl
  · rintro rfl
    have := (o2.which ((fnv32 [99] ^^^ fnv32 [98]) % 196608)).mpr ⟨by decide +kernel, by decide +kernel, by omega⟩
    simp at this
  · simp only [extractF, h1, Option.bind_eq_bind, Option.bind_some, hc, Bool.false_eq_true, if_false, o1']; rfl

/-- "Inf" is infinity, all else is 0 -/
noncomputable def exInf : Strconv F64 := ⟨fun _ => none, fun b => some (if b = [73, 110, 102] then .inf false else .fin 0)⟩

/-- `dupi -r=x extract -b -sigma Inf` on amd64, on an index of two documents -/
example : ∃ d, Steps asciiUni Json.codec mergeSorter Disk.empty exCmdOps d ∧
    ∃ out, extractRunF convAmd64 exInf exJoin Json.codec mergeSorter false false (fun n => n) (2 ^ 32) (2 ^ 40) (2 ^ 33) d exProc
        [[45, 114, 61, 120], Verb.extract.name, [45, 98], [45, 115, 105, 103, 109, 97], [73, 110, 102]] = some (.ok (extractBlots out)) ∧
      Exactly asciiUni exCmdConfig (documents exCmdSessions) 2 out := by
  obtain ⟨d, hd⟩ := exCmd_disk
  refine ⟨d, hd, ?_⟩
  have := C79_run_amd64 mergeSorter_isSorter exInf exJoin false false (fun n => n) (ff := 2 ^ 32) (fuel := 2 ^ 40) (k := 2 ^ 33) (by norm_num) (by norm_num) (by norm_num)
    exCmd_made hd exCmd_root (opts := [⟨[98], Flag.trueB, .bare, false⟩, ⟨sigmaB, [73, 110, 102], .apart, false⟩])
    (by simp [ExtractOpt, exInf]) (l := []) (rest := []) (.plain (by simp)) exProc exCmd_cat exCmd_fits (by
      intro y hy
      simp [sigmaF, valueOf, sigmaB, exInf] at hy)
  have e1 : isOn [⟨[98], Flag.trueB, .bare, false⟩, ⟨sigmaB, [73, 110, 102], .apart, false⟩] jsonB = false := by decide
  have e2 : isOn [⟨[98], Flag.trueB, .bare, false⟩, ⟨sigmaB, [73, 110, 102], .apart, false⟩] [98] = true := by decide
  simp only [output, e1, e2, Bool.false_eq_true, if_false, if_true] at this
  simpa [exCmdOpts, Opt.args, sigmaB] using this

end Dupi.Props
