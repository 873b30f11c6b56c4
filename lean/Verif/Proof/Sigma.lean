import Verif.Spec.Sigma
import Verif.Proof.Float
/-! # The threshold of the extract command grows with -sigma -/

namespace Dupi
open Spec

namespace F64

open Classical in
theorem ofReal_eq (x : ℝ) : ofReal x = if |Fl.near x| < 2 ^ 1024 then .fin (Fl.near x) else .inf (decide (x < 0)) := by
  unfold ofReal
  rw [Fl.round_eq]
  by_cases h : |Fl.near x| < 2 ^ 1024
  · rw [if_pos h, if_pos h]
  · rw [if_neg h, if_neg h]

theorem bot_le (z : F64) (h : z ≠ .nan) : Le64 (.inf true) z := by
  cases z with
  | fin x => exact .low x
  | inf n => cases n with
    | true => exact .same _
    | false => exact .infs
  | nan => exact absurd rfl h

theorem le_top (z : F64) (h : z ≠ .nan) : Le64 z (.inf false) := by
  cases z with
  | fin x => exact .high x
  | inf n => cases n with
    | true => exact .infs
    | false => exact .same _
  | nan => exact absurd rfl h

theorem ofReal_ne_nan (x : ℝ) : ofReal x ≠ .nan := by
  rw [ofReal_eq]; split <;> simp

theorem ofReal_mono {x y : ℝ} (h : x ≤ y) : Le64 (ofReal x) (ofReal y) := by
  have hm := Fl.near_mono h
  have hb : (0 : ℝ) < 2 ^ 1024 := pow_pos (by norm_num) _
  rw [ofReal_eq, ofReal_eq]
  generalize (2 : ℝ) ^ 1024 = B at *
  by_cases h1 : |Fl.near x| < B <;> by_cases h2 : |Fl.near y| < B
  · rw [if_pos h1, if_pos h2]; exact .fin hm
  · rw [if_pos h1, if_neg h2]
    by_cases hy : y < 0
    · have := Fl.near_mono hy.le
      rw [Fl.near_zero] at this
      rw [not_lt, abs_of_nonpos this] at h2
      have := (abs_lt.mp h1).1
      linarith
    · rw [decide_eq_false hy]; exact .high _
  · rw [if_neg h1, if_pos h2]
    by_cases hx : x < 0
    · rw [decide_eq_true hx]; exact .low _
    · have := Fl.near_mono (not_lt.mp hx)
      rw [Fl.near_zero] at this
      rw [not_lt, abs_of_nonneg this] at h1
      have := (abs_lt.mp h2).2
      linarith
  · rw [if_neg h1, if_neg h2]
    by_cases hx : x < 0
    · rw [decide_eq_true hx]; exact bot_le _ (by simp)
    · rw [decide_eq_false hx, decide_eq_false (by linarith)]; exact .same _

theorem finAdd_mono (m : ℝ) {z z' : F64} (h : Le64 z z') : Le64 (finAdd m z) (finAdd m z') := by
  cases h with
  | fin h => exact ofReal_mono (by linarith)
  | low x => exact bot_le _ (ofReal_ne_nan _)
  | high x => exact le_top _ (ofReal_ne_nan _)
  | infs => exact .infs
  | same n => exact .same n

theorem mulFin_mono {s : ℝ} (hs : 0 < s) {z z' : F64} (h : Le64 z z') : Le64 (z.mulFin s) (z'.mulFin s) := by
  have h1 (n : Bool) : mulFin (.inf n) s = .inf n := by
    simp only [mulFin]; rw [if_neg hs.ne', if_neg (not_lt.mpr hs.le)]
  cases h with
  | fin h => exact ofReal_mono (mul_le_mul_of_nonneg_right h hs.le)
  | low x => rw [h1]; exact bot_le _ (ofReal_ne_nan _)
  | high x => rw [h1]; exact le_top _ (ofReal_ne_nan _)
  | infs => rw [h1, h1]; exact .infs
  | same n => rw [h1]; exact .same n

theorem fmaFin_mono {s : ℝ} (hs : 0 < s) (m : ℝ) {z z' : F64} (h : Le64 z z') : Le64 (z.fmaFin s m) (z'.fmaFin s m) := by
  have h1 (n : Bool) : fmaFin (.inf n) s m = .inf n := by
    simp only [fmaFin]; rw [if_neg hs.ne', if_neg (not_lt.mpr hs.le)]
  cases h with
  | fin h => exact ofReal_mono (by have := mul_le_mul_of_nonneg_right h hs.le; linarith)
  | low x => rw [h1]; exact bot_le _ (ofReal_ne_nan _)
  | high x => rw [h1]; exact le_top _ (ofReal_ne_nan _)
  | infs => rw [h1, h1]; exact .infs
  | same n => rw [h1]; exact .same n

end F64

namespace Cmd

theorem mathRound_mono {x y : ℝ} (h : x ≤ y) : mathRound x ≤ mathRound y := by
  unfold mathRound
  by_cases hx : x < 0 <;> by_cases hy : y < 0
  · rw [if_pos hx, if_pos hy]
    have := Int.floor_le_floor (show -y + 1 / 2 ≤ -x + 1 / 2 by linarith)
    omega
  · rw [if_pos hx, if_neg hy]
    have h1 : 0 ≤ ⌊-x + 1 / 2⌋ := Int.floor_nonneg.mpr (by linarith)
    have h2 : 0 ≤ ⌊y + 1 / 2⌋ := Int.floor_nonneg.mpr (by linarith)
    omega
  · exact absurd (lt_of_le_of_lt h hy) hx
  · rw [if_neg hx, if_neg hy]; exact Int.floor_le_floor (by linarith)

theorem mathRound_int (k : ℤ) : mathRound k = k := by
  unfold mathRound
  split
  · have : ⌊-(k : ℝ) + 1 / 2⌋ = -k := by rw [Int.floor_eq_iff]; push_cast; constructor <;> linarith
    omega
  · rw [Int.floor_eq_iff]; constructor <;> linarith

theorem trunc_int (k : ℤ) : trunc k = k := by
  unfold trunc
  split
  · rw [← Int.cast_neg, Int.floor_intCast]; omega
  · exact Int.floor_intCast k

theorem convAmd64_converts : Converts convAmd64 := by
  intro k h1 h2
  simp only [convAmd64, trunc_int]
  rw [if_pos ⟨h1, h2⟩]

theorem convArm64_converts : Converts convArm64 := by
  intro k h1 h2
  simp only [convArm64, trunc_int]
  omega

theorem cutoffF_mono (fused : Bool) (m : ℝ) {s : ℝ} (hs : 0 < s) {z z' : F64} (h : Le64 z z') : Le64 (cutoffF fused m s z) (cutoffF fused m s z') := by
  unfold cutoffF
  cases fused with
  | true => exact F64.fmaFin_mono hs m h
  | false => exact F64.finAdd_mono m (F64.mulFin_mono hs h)

/-- and for finite values also if the deviation is 0 -/
theorem cutoffF_mono_fin (fused : Bool) (m : ℝ) {s : ℝ} (hs : 0 ≤ s) {x y : ℝ} (h : x ≤ y) : Le64 (cutoffF fused m s (.fin x)) (cutoffF fused m s (.fin y)) := by
  have h1 := mul_le_mul_of_nonneg_right h hs
  unfold cutoffF
  cases fused with
  | true => exact F64.ofReal_mono (by linarith)
  | false => exact F64.finAdd_mono m (F64.ofReal_mono h1)

theorem rounded_mono {z z' : F64} (h : Le64 z z') : Le64 z.rounded z'.rounded := by
  cases h with
  | fin h => exact .fin (by exact_mod_cast mathRound_mono h)
  | low x => exact .low _
  | high x => exact .high _
  | infs => exact .infs
  | same n => exact .same n

theorem convArm64_mono {z z' : F64} (h : Le64 z z') : convArm64 z.rounded ≤ convArm64 z'.rounded := by
  cases h with
  | fin h =>
    have := mathRound_mono h
    simp only [F64.rounded, convArm64, trunc_int]
    omega
  | low x => simp only [F64.rounded, convArm64, trunc_int]; omega
  | high x => simp only [F64.rounded, convArm64, trunc_int]; omega
  | infs => simp only [F64.rounded, convArm64]; omega
  | same n => exact le_rfl

/-- The model with finite values only is a part of the one with all. -/
theorem thresholdF_of_threshold {conv : F64 → Int} (hconv : Converts conv) {fused : Bool} {m s σ : ℝ} {N : ℤ} (h : threshold fused m s σ = some N) :
    thresholdF conv fused m s (.fin σ) = N := by
  have hof {x y : ℝ} (hr : Fl.round x = some y) : F64.ofReal x = .fin y := by unfold F64.ofReal; rw [hr]
  unfold threshold at h
  cases hc : cutoff fused m s σ with
  | none => rw [hc] at h; cases h
  | some w =>
    rw [hc] at h
    simp only [Option.bind_eq_bind, Option.bind_some] at h
    split at h
    · rename_i hb
      injection h with h
      subst h
      have hk : cutoffF fused m s (.fin σ) = .fin w := by
        unfold cutoff at hc
        unfold cutoffF
        cases fused with
        | true =>
          rw [if_pos rfl] at hc ⊢
          exact hof hc
        | false =>
          simp only [Bool.false_eq_true, if_false] at hc ⊢
          cases hp : Fl.mul σ s with
          | none => rw [hp] at hc; cases hc
          | some p =>
            rw [hp] at hc
            have : (F64.fin σ).mulFin s = .fin p := hof hp
            rw [this]
            exact hof hc
      rw [thresholdF, hk]
      rw [abs_lt] at hb
      refine hconv _ ?_ ?_
      · have : ((-2 ^ 63 : ℤ) : ℝ) ≤ (mathRound w : ℝ) := by push_cast; linarith [hb.1]
        exact_mod_cast this
      · exact_mod_cast hb.2
    · cases h

/-- a greater threshold stops the loop earlier -/
theorem extractLoop_prefix (json : Bool) (grow : Nat → Nat) (x : Index) (ff fuel : Nat) {N N' : Int} (h : N ≤ N') :
    ∀ (k : Nat) (q : QState) (b : Blot) {out : List Blot}, extractLoop json grow x ff fuel N k q b = .ok out →
      ∃ out', extractLoop json grow x ff fuel N' k q b = .ok out' ∧ out' <+: out := by
  intro k
  induction k with
  | zero => intro q b out e; cases e
  | succ k ih =>
    intro q b out e
    unfold extractLoop at e ⊢
    simp only [bind, Except.bind] at e ⊢
    cases hn : Query.next grow x ff fuel q [b] with
    | error _ => rw [hn] at e; cases e
    | ok r =>
      rw [hn] at e
      simp only at e ⊢
      by_cases h1 : r.eof = true
      · rw [if_pos h1] at e ⊢
        by_cases h2 : r.n ≠ 0
        · rw [if_pos h2] at e; cases e
        · rw [if_neg h2] at e ⊢; exact ⟨out, e, List.prefix_refl _⟩
      · rw [if_neg h1] at e ⊢
        by_cases h2 : r.n = 0
        · rw [if_pos h2] at e; cases e
        · rw [if_neg h2] at e ⊢
          cases h3 : r.dst[0]? with
          | none => rw [h3] at e; cases e
          | some b' =>
            rw [h3] at e
            simp only at e ⊢
            by_cases h4 : (b'.len : Int) < N
            · rw [if_pos h4] at e
              rw [if_pos (by omega)]
              exact ⟨[], rfl, List.nil_prefix⟩
            · rw [if_neg h4] at e
              cases h5 : extractLoop json grow x ff fuel N k r.state { b' with docs := none } with
              | error _ => rw [h5] at e; cases e
              | ok rest =>
                rw [h5] at e
                obtain ⟨rest', g1, g2⟩ := ih _ _ h5
                by_cases h6 : (b'.len : Int) < N'
                · rw [if_pos h6]; exact ⟨[], rfl, List.nil_prefix⟩
                · rw [if_neg h6, g1]
                  refine ⟨_, rfl, ?_⟩
                  injection e with e
                  subst e
                  split
                  · exact g2
                  · exact (List.prefix_cons_inj _).mpr g2

theorem extract_prefix (json : Bool) (grow : Nat → Nat) (x : Index) (ff fuel k : Nat) {N N' : Int} (h : N ≤ N') {out : List Blot}
    (e : extract json grow x ff fuel k N = .ok out) : ∃ out', extract json grow x ff fuel k N' = .ok out' ∧ out' <+: out := by
  unfold extract at e ⊢
  simp only [bind, Except.bind] at e ⊢
  cases hq : x.startQuery with
  | error _ => rw [hq] at e; cases e
  | ok q =>
    rw [hq] at e
    exact extractLoop_prefix json grow x ff fuel h k q _ e

end Cmd
end Dupi
