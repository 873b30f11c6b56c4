import Verif.Proof.FloatSum
/-! # BlotMean and BlotSigma -/

namespace Dupi
open Fl

/-- zero or not too small -/
def Fl.Lo (x : ℝ) : Prop := x = 0 ∨ (1 / 2) ^ 400 ≤ x

theorem Fl.Lo.add {x y : ℝ} (hx : Lo x) (hy : Lo y) (h : 0 ≤ x) (h' : 0 ≤ y) : Lo (x + y) := by
  rcases hx with rfl | hx
  · rw [zero_add]; exact hy
  · exact .inr (hx.trans (le_add_of_nonneg_right h'))

theorem Fl.Lo.mid {x : ℝ} (hx : Lo x) (h : x ≤ 2 ^ 200) : Mid x := by
  rcases hx with rfl | hx
  · exact .inl rfl
  · exact .inr ⟨le_trans (pow_le_pow_of_le_one (by norm_num) (by norm_num) (by norm_num)) hx, h.trans (pow_le_pow_right₀ (by norm_num) (by norm_num))⟩

/-- a mean number of documents -/
structure Fl.IsAvg (a : ℝ) : Prop where
  pos : 0 ≤ a
  le : a ≤ 2 ^ 40
  grid : Grid a

namespace ShardIndex

theorem diff_bounds {a : ℝ} (ha : IsAvg a) (ct : UInt32) :
    |a - ct.toNat| ≤ 2 ^ 40 ∧ (a - ct.toNat = 0 ∨ (1 / 2) ^ 200 ≤ |a - ct.toNat|) := by
  constructor
  · have h1 : (ct.toNat : ℝ) < 2 ^ 32 := by exact_mod_cast ct.toNat_lt
    have h2 : (0 : ℝ) ≤ ct.toNat := by positivity
    have h3 := ha.pos
    have h4 := ha.le
    have h5 : (2 : ℝ) ^ 32 ≤ 2 ^ 40 := by norm_num
    rw [abs_le]
    constructor <;> linarith
  · by_cases h0 : a - ct.toNat = 0
    · exact .inl h0
    · exact .inr ((ha.grid.sub (Grid.nat _)).small h0)

theorem square_bounds {v : ℝ} (h1 : |v| ≤ 2 ^ 40) (h2 : v = 0 ∨ (1 / 2) ^ 200 ≤ |v|) : Lo (v * v) ∧ v * v ≤ 2 ^ 80 := by
  rw [← abs_mul_abs_self v]
  constructor
  · rcases h2 with rfl | h2
    · left; simp
    · right
      calc ((1 : ℝ) / 2) ^ 400 = (1 / 2) ^ 200 * (1 / 2) ^ 200 := by rw [← pow_add]
        _ ≤ _ := mul_le_mul h2 h2 (by positivity) (by positivity)
  · calc |v| * |v| ≤ 2 ^ 40 * 2 ^ 40 := mul_le_mul h1 h1 (by positivity) (by positivity)
      _ = 2 ^ 80 := by rw [← pow_add]

theorem sosStep_near (fused : Bool) {a : ℝ} (ha : IsAvg a) (ct : UInt32) {k : ℕ} {S ttl : ℝ} (h : Near k S ttl) (h3 : 3 ≤ k) (hk : k ≤ 2 ^ 51)
    (hlo : Lo S) (hhi : S + 2 ^ 80 ≤ 2 ^ 200) :
    ∃ t, sosStep fused a ttl ct = some t ∧ Near (k + 1) (S + (a - ct.toNat) * (a - ct.toNat)) t ∧ Lo (S + (a - ct.toNat) * (a - ct.toNat)) := by
  obtain ⟨b1, b2⟩ := diff_bounds ha ct
  obtain ⟨q1, q2⟩ := square_bounds b1 b2
  have hc : Fl.ofNat ct.toNat = some (ct.toNat : ℝ) := ofNat_exact _ (lt_trans ct.toNat_lt (by norm_num))
  have hnv : Normal (a - ct.toNat) := normal_of_bounds (b2.imp _root_.id fun b2 =>
    ⟨le_trans (pow_le_pow_of_le_one (by norm_num) (by norm_num) (by norm_num)) b2, b1.trans (pow_le_pow_right₀ (by norm_num) (by norm_num))⟩)
  obtain ⟨d, hd, he⟩ := round_err hnv
  have hsq := Near.square he
  have hd' : Fl.sub a (ct.toNat : ℝ) = some d := hd
  generalize a - ct.toNat = v at *
  have hk52 : k ≤ 2 ^ 52 := hk.trans (by norm_num)
  have hlo' := hlo.add q1 h.pos (mul_self_nonneg v)
  have hmid := hlo'.mid (le_trans (by linarith) hhi)
  refine (show ∃ t, sosStep fused a ttl ct = some t ∧ Near (k + 1) (S + v * v) t from ?_).imp fun t ht => ⟨ht.1, ht.2, hlo'⟩
  unfold sosStep
  rw [hc]
  simp only [Option.bind_eq_bind, Option.bind_some, hd']
  cases fused with
  | true =>
    have hs := h.add (hsq.mono (show 2 ≤ k by omega))
    simp only [if_true, Fl.fma]
    rw [add_comm (d * d) ttl]
    exact hs.round (hs.normal hk52 hmid)
  | false =>
    have hq : Normal (d * d) := hsq.normal (by norm_num) (q1.mid (q2.trans (pow_le_pow_right₀ (by norm_num) (by norm_num))))
    obtain ⟨q, e1, e2⟩ := hsq.round hq
    have hs := h.add (e2.mono (show 2 + 1 ≤ k by omega))
    simp only [Bool.false_eq_true, if_false, Fl.mul, e1, Option.bind_some, Fl.add]
    exact hs.round (hs.normal hk52 hmid)

/-- the sum of the squared differences, exactly -/
noncomputable def sqDiffs (a : ℝ) (cs : List UInt32) : ℝ := (cs.map fun c => (a - c.toNat) * (a - c.toNat)).sum

theorem sqDiffs_pos (a : ℝ) (cs : List UInt32) : 0 ≤ sqDiffs a cs := by
  apply List.sum_nonneg
  intro x hx
  obtain ⟨c, _, rfl⟩ := List.mem_map.mp hx
  exact mul_self_nonneg _

theorem sqDiffs_le {a : ℝ} (ha : IsAvg a) (cs : List UInt32) : sqDiffs a cs ≤ cs.length * 2 ^ 80 ∧ Lo (sqDiffs a cs) := by
  induction cs with
  | nil => exact ⟨by simp [sqDiffs], .inl (by simp [sqDiffs])⟩
  | cons c cs ih =>
    obtain ⟨b1, b2⟩ := diff_bounds ha c
    obtain ⟨q1, q2⟩ := square_bounds b1 b2
    have e : sqDiffs a (c :: cs) = (a - c.toNat) * (a - c.toNat) + sqDiffs a cs := by simp [sqDiffs]
    rw [e]
    refine ⟨?_, q1.add ih.2 (mul_self_nonneg _) (sqDiffs_pos a cs)⟩
    rw [List.length_cons]
    push_cast
    linarith [ih.1]

theorem fold_near (fused : Bool) {a : ℝ} (ha : IsAvg a) (cs : List UInt32) : ∀ {k : ℕ} {S ttl : ℝ}, Near k S ttl → 3 ≤ k → k + cs.length ≤ 2 ^ 51 → Lo S →
    S + cs.length * 2 ^ 80 ≤ 2 ^ 200 → ∃ t, cs.foldlM (sosStep fused a) ttl = some t ∧ Near (k + cs.length) (S + sqDiffs a cs) t := by
  induction cs with
  | nil => intro k S ttl h _ _ _ _; exact ⟨ttl, rfl, by simpa [sqDiffs] using h⟩
  | cons c cs ih =>
    intro k S ttl h h3 hk hlo hhi
    rw [List.length_cons] at hk hhi
    push_cast at hhi
    have hn : (0 : ℝ) ≤ cs.length * 2 ^ 80 := by positivity
    obtain ⟨t, ht, hN, hL⟩ := sosStep_near fused ha c h h3 (by omega) hlo (by linarith)
    obtain ⟨b1, b2⟩ := diff_bounds ha c
    obtain ⟨_, q2⟩ := square_bounds b1 b2
    obtain ⟨t', ht', hN'⟩ := ih hN (by omega) (by omega) hL (by linarith)
    refine ⟨t', by rw [List.foldlM_cons, ht]; exact ht', ?_⟩
    have e : S + sqDiffs a (c :: cs) = S + (a - c.toNat) * (a - c.toNat) + sqDiffs a cs := by simp [sqDiffs, add_assoc]
    rw [e, List.length_cons, show k + (cs.length + 1) = k + 1 + cs.length by omega]
    exact hN'

theorem sosDiffs_near (fused : Bool) {a : ℝ} (ha : IsAvg a) (x : ShardIndex) (hl : x.counts.length = 65536) :
    ∃ t, x.sosDiffs fused a = some t ∧ Near 65539 (sqDiffs a x.counts) t := by
  obtain ⟨t, h1, h2⟩ := fold_near fused ha x.counts (Near.zero' 3) le_rfl (by rw [hl]; norm_num) (.inl rfl) (by rw [hl]; norm_num)
  rw [zero_add, hl] at h2
  exact ⟨t, h1, h2⟩

end ShardIndex

namespace Index

/-- the sum of the squared differences over all shards -/
noncomputable def sqDiffsAll (a : ℝ) (xs : List ShardIndex) : ℝ := (xs.map fun x => ShardIndex.sqDiffs a x.counts).sum

theorem sqDiffsAll_pos (a : ℝ) (xs : List ShardIndex) : 0 ≤ sqDiffsAll a xs := by
  apply List.sum_nonneg
  intro x hx
  obtain ⟨c, _, rfl⟩ := List.mem_map.mp hx
  exact ShardIndex.sqDiffs_pos a _

theorem sqDiffsAll_le {a : ℝ} (ha : IsAvg a) (xs : List ShardIndex) (hl : ∀ x ∈ xs, x.counts.length = 65536) :
    sqDiffsAll a xs ≤ ((65536 * xs.length : ℕ) : ℝ) * 2 ^ 80 := by
  induction xs with
  | nil => simp [sqDiffsAll]
  | cons x xs ih =>
    have h1 := ih fun y hy => hl y (by simp [hy])
    have h2 := (ShardIndex.sqDiffs_le ha x.counts).1
    rw [hl x (by simp)] at h2
    have e : sqDiffsAll a (x :: xs) = ShardIndex.sqDiffs a x.counts + sqDiffsAll a xs := by simp [sqDiffsAll]
    rw [e, List.length_cons]
    push_cast at h1 h2 ⊢
    linarith

theorem shards_near (fused : Bool) {a : ℝ} (ha : IsAvg a) (xs : List ShardIndex) (hl : ∀ x ∈ xs, x.counts.length = 65536) :
    ∀ {k : ℕ} {S sos : ℝ}, Near k S sos → 65539 ≤ k → k + xs.length ≤ 2 ^ 51 → Lo S → S + xs.length * 2 ^ 100 ≤ 2 ^ 200 →
    ∃ t, xs.foldlM (fun sos sh => do let s ← sh.sosDiffs fused a; Fl.add sos s) sos = some t ∧ Near (k + xs.length) (S + sqDiffsAll a xs) t ∧
      Lo (S + sqDiffsAll a xs) ∧ S + sqDiffsAll a xs ≤ 2 ^ 200 := by
  induction xs with
  | nil => intro k S sos h _ _ hlo hhi; exact ⟨sos, rfl, by simpa [sqDiffsAll] using h, by simpa [sqDiffsAll] using hlo, by simpa [sqDiffsAll] using hhi⟩
  | cons x xs ih =>
    intro k S sos h h3 hk hlo hhi
    rw [List.length_cons] at hk hhi
    push_cast at hhi
    have hn : (0 : ℝ) ≤ xs.length * 2 ^ 100 := by positivity
    have hx := hl x (by simp)
    obtain ⟨s, hs, hN⟩ := ShardIndex.sosDiffs_near fused ha x hx
    obtain ⟨b1, b2⟩ := ShardIndex.sqDiffs_le ha x.counts
    have b3 := ShardIndex.sqDiffs_pos a x.counts
    rw [hx] at b1
    have b4 : ((65536 : ℕ) : ℝ) * 2 ^ 80 ≤ 2 ^ 100 := by norm_num
    have hsum := h.add (hN.mono h3)
    have hlo' := hlo.add b2 h.pos b3
    obtain ⟨t, ht, hNt⟩ := hsum.round (hsum.normal (by omega) (hlo'.mid (by linarith)))
    obtain ⟨t', ht', r⟩ := ih (fun y hy => hl y (by simp [hy])) hNt (by omega) (by omega) hlo' (by linarith)
    have e : S + sqDiffsAll a (x :: xs) = S + ShardIndex.sqDiffs a x.counts + sqDiffsAll a xs := by simp [sqDiffsAll, add_assoc]
    refine ⟨t', ?_, ?_⟩
    · rw [List.foldlM_cons]
      simp only [hs, Option.bind_eq_bind, Option.bind_some, Fl.add, ht]
      exact ht'
    · rw [e, List.length_cons, show k + (xs.length + 1) = k + 1 + xs.length by omega]
      exact r

/-- `BlotSigma` given the mean used -/
theorem blotSigma_near (fused : Bool) (x : Index) {a : ℝ} (ha : IsAvg a) (hl : ∀ s ∈ x.shards, s.counts.length = 65536) (h0 : 0 < x.shards.length)
    (h1 : x.shards.length < 2 ^ 32) :
    ∃ t, x.blotSigma fused a = some t ∧ Near (65541 + x.shards.length) (√(sqDiffsAll a x.shards / (65536 * x.shards.length : ℕ))) t ∧
      (√(sqDiffsAll a x.shards / (65536 * x.shards.length : ℕ)) = 0 ∨ (1 / 2) ^ 240 ≤ √(sqDiffsAll a x.shards / (65536 * x.shards.length : ℕ))) ∧
      √(sqDiffsAll a x.shards / (65536 * x.shards.length : ℕ)) ≤ 2 ^ 40 := by
  have hn : (x.shards.length : ℝ) < 2 ^ 32 := by exact_mod_cast h1
  obtain ⟨s, hs, hN, hL, hH⟩ := shards_near fused ha x.shards hl (Near.zero' 65539) le_rfl (by omega) (.inl rfl) (by
    rw [zero_add]
    calc (x.shards.length : ℝ) * 2 ^ 100 ≤ 2 ^ 32 * 2 ^ 100 := by gcongr
      _ ≤ 2 ^ 200 := by norm_num)
  rw [zero_add] at hN hL hH
  have hB : Fl.ofNat x.stats.numBlots = some ((65536 * x.shards.length : ℕ) : ℝ) := ofNat_exact _ (by simp only [stats]; omega)
  have hb0 : (1 : ℝ) ≤ ((65536 * x.shards.length : ℕ) : ℝ) := by exact_mod_cast (show 1 ≤ 65536 * x.shards.length by omega)
  have hb1 : ((65536 * x.shards.length : ℕ) : ℝ) ≤ 2 ^ 48 := by exact_mod_cast (show 65536 * x.shards.length ≤ 2 ^ 48 by omega)
  have hall := sqDiffsAll_le ha x.shards hl
  generalize ((65536 * x.shards.length : ℕ) : ℝ) = B at hB hb0 hb1 hall ⊢
  have hB0 : 0 < B := by linarith
  have hpos := sqDiffsAll_pos a x.shards
  generalize sqDiffsAll a x.shards = Q at *
  have hhi : √(Q / B) ≤ 2 ^ 40 := by
    rw [Real.sqrt_le_left (by positivity), div_le_iff₀ hB0, ← pow_mul, mul_comm]
    exact hall
  have hlow : √(Q / B) = 0 ∨ (1 / 2) ^ 240 ≤ √(Q / B) := by
    rcases hL with rfl | hL
    · left; simp
    · right
      apply Real.le_sqrt_of_sq_le
      rw [le_div_iff₀ hB0, ← pow_mul]
      calc ((1 : ℝ) / 2) ^ 480 * B ≤ (1 / 2) ^ 480 * 2 ^ 48 := by gcongr
        _ = (1 / 2) ^ 432 * ((1 / 2) ^ 48 * 2 ^ 48) := by rw [← mul_assoc, ← pow_add]
        _ = (1 / 2) ^ 432 := by rw [← mul_pow, show (1 : ℝ) / 2 * 2 = 1 by norm_num, one_pow, mul_one]
        _ ≤ (1 / 2) ^ 400 := pow_le_pow_of_le_one (by norm_num) (by norm_num) (by norm_num)
        _ ≤ Q := hL
  have hmid : Mid (Q / B) := by
    rcases hL with rfl | hL
    · left; simp
    · right
      constructor
      · rw [le_div_iff₀ hB0]
        calc ((1 : ℝ) / 2) ^ 500 * B ≤ (1 / 2) ^ 500 * 2 ^ 48 := by gcongr
          _ = (1 / 2) ^ 452 * ((1 / 2) ^ 48 * 2 ^ 48) := by rw [← mul_assoc, ← pow_add]
          _ = (1 / 2) ^ 452 := by rw [← mul_pow, show (1 : ℝ) / 2 * 2 = 1 by norm_num, one_pow, mul_one]
          _ ≤ (1 / 2) ^ 400 := pow_le_pow_of_le_one (by norm_num) (by norm_num) (by norm_num)
          _ ≤ Q := hL
      · refine le_trans (div_le_self hpos hb0) (hH.trans (pow_le_pow_right₀ (by norm_num) (by norm_num)))
  have hD := hN.div hB0
  obtain ⟨v, hv, hNv⟩ := hD.round (hD.normal (by omega) hmid)
  have hS := hNv.sqrt
  have hmid' : Mid (√(Q / B)) := by
    rcases hmid with h | ⟨g1, g2⟩
    · left; rw [h]; simp
    · right
      have : ((1 : ℝ) / 2) ^ 500 = ((1 / 2) ^ 250) ^ 2 := by rw [← pow_mul]
      have h2 : (2 : ℝ) ^ 500 = (2 ^ 250) ^ 2 := by rw [← pow_mul]
      constructor
      · apply Real.le_sqrt_of_sq_le
        refine le_trans ?_ g1
        rw [← pow_mul]
        exact pow_le_pow_of_le_one (by norm_num) (by norm_num) (by norm_num)
      · rw [Real.sqrt_le_left (by positivity)]
        refine g2.trans ?_
        rw [← pow_mul]
        exact pow_le_pow_right₀ (by norm_num) (by norm_num)
  obtain ⟨t, ht, hNt⟩ := hS.round (hS.normal (by omega) hmid')
  refine ⟨t, ?_, hNt.mono (by omega), hlow, hhi⟩
  unfold blotSigma
  simp only [Option.bind_eq_bind] at hs ⊢
  rw [hs]
  simp only [Option.bind_some, hB, Fl.div, if_neg hB0.ne', hv, Fl.sqrt, if_neg (not_lt.mpr hNv.pos')]
  exact ht

/-- `BlotMean` -/
theorem blotMean_near (x : Index) (h0 : 0 < x.shards.length) (h1 : x.shards.length < 2 ^ 32) (hp : x.stats.numPosts < x.stats.numBlots * 2 ^ 32) :
    ∃ m, x.blotMean = some m ∧ Near 2 ((x.stats.numPosts : ℝ) / x.stats.numBlots) m ∧ IsAvg m ∧
      (x.stats.numPosts < 2 ^ 53 → Near 1 ((x.stats.numPosts : ℝ) / x.stats.numBlots) m) := by
  have hb : x.stats.numBlots = 65536 * x.shards.length := rfl
  have hB : Fl.ofNat x.stats.numBlots = some (x.stats.numBlots : ℝ) := ofNat_exact _ (by omega)
  have hb0 : (1 : ℝ) ≤ x.stats.numBlots := by exact_mod_cast (show 1 ≤ x.stats.numBlots by omega)
  have hb1 : (x.stats.numBlots : ℝ) ≤ 2 ^ 48 := by exact_mod_cast (show x.stats.numBlots ≤ 2 ^ 48 by omega)
  have hp' : (x.stats.numPosts : ℝ) ≤ x.stats.numBlots * 2 ^ 32 := by exact_mod_cast hp.le
  have hpn : (x.stats.numPosts : ℝ) = 0 ∨ (1 : ℝ) ≤ x.stats.numPosts := by
    rcases Nat.eq_zero_or_pos x.stats.numPosts with h | h
    · left; exact_mod_cast h
    · right; exact_mod_cast h
  have hexact : x.stats.numPosts < 2 ^ 53 → Fl.ofNat x.stats.numPosts = some (x.stats.numPosts : ℝ) := ofNat_exact _
  unfold blotMean
  have hofn : Fl.ofNat x.stats.numPosts = Fl.round (x.stats.numPosts : ℝ) := rfl
  generalize x.stats.numBlots = B at *
  generalize x.stats.numPosts = P at *
  have hB0 : (0 : ℝ) < B := by linarith
  have hP0 : (0 : ℝ) ≤ P := by positivity
  have hmidP : Mid P := by
    rcases hpn with h | h
    · exact .inl h
    · right
      refine ⟨le_trans (pow_le_one₀ (by norm_num) (by norm_num)) h, hp'.trans ?_⟩
      calc (B : ℝ) * 2 ^ 32 ≤ 2 ^ 48 * 2 ^ 32 := by gcongr
        _ = 2 ^ 80 := by rw [← pow_add]
        _ ≤ _ := pow_le_pow_right₀ (by norm_num) (by norm_num)
  have hlowM : (P : ℝ) / B = 0 ∨ (1 / 2) ^ 48 ≤ (P : ℝ) / B := by
    rcases hpn with h | h
    · left; rw [h]; simp
    · right
      rw [le_div_iff₀ hB0]
      refine le_trans ?_ h
      calc ((1 : ℝ) / 2) ^ 48 * B ≤ (1 / 2) ^ 48 * 2 ^ 48 := by gcongr
        _ = 1 := by rw [← mul_pow]; norm_num
  have hhiM : (P : ℝ) / B ≤ 2 ^ 32 := by rw [div_le_iff₀ hB0]; linarith
  have hmidM : Mid ((P : ℝ) / B) := hlowM.imp _root_.id fun h => ⟨le_trans (pow_le_pow_of_le_one (by norm_num) (by norm_num) (by norm_num)) h,
    hhiM.trans (pow_le_pow_right₀ (by norm_num) (by norm_num))⟩
  have fin {k : ℕ} (hk : k ≤ 1) {p : ℝ} (hN : Near k P p) : ∃ m, Fl.div p B = some m ∧ Near (k + 1) ((P : ℝ) / B) m ∧ IsAvg m := by
    have hD := hN.div hB0
    obtain ⟨m, hm, hNm⟩ := hD.round (hD.normal (by omega) hmidM)
    refine ⟨m, by simp only [Fl.div, if_neg hB0.ne', hm], hNm, hNm.pos', ?_, ?_⟩
    · have h2 := rk_half (show k + 1 ≤ 2 ^ 52 by omega)
      have h3 : 1 / 2 * m ≤ (1 - eps) ^ (k + 1) * m := mul_le_mul_of_nonneg_right h2 hNm.pos'
      have h4 := hNm.upper
      have h5 : (2 : ℝ) ^ 32 * 2 ≤ 2 ^ 40 := by norm_num
      linarith
    · refine grid_round hm ?_
      rcases hlowM with h | h
      · left
        rw [h] at hD
        exact hD.zero
      · right
        rw [abs_of_nonneg hD.pos']
        have h2 := rk_half (show k ≤ 2 ^ 52 by omega)
        have h3 : 1 / 2 * ((P : ℝ) / B) ≤ (1 - eps) ^ k * ((P : ℝ) / B) := mul_le_mul_of_nonneg_right h2 hD.pos
        have h4 := hD.lower
        have h5 : ((1 : ℝ) / 2) ^ 140 ≤ 1 / 2 * (1 / 2) ^ 48 := by
          rw [← pow_succ']
          exact pow_le_pow_of_le_one (by norm_num) (by norm_num) (by norm_num)
        linarith
  simp only [Option.bind_eq_bind, hB]
  by_cases hlt : P < 2 ^ 53
  · obtain ⟨m, g1, g2, g3⟩ := fin (k := 0) (by omega) (Near.refl hP0)
    exact ⟨m, by simp only [hexact hlt, Option.bind_some, g1], g2.mono (by omega), g3, fun _ => g2⟩
  · have hR := Near.refl hP0
    obtain ⟨p, e1, e2⟩ := hR.round (hR.normal (by omega) hmidP)
    obtain ⟨m, g1, g2, g3⟩ := fin (k := 1) (by omega) e2
    exact ⟨m, by simp only [hofn, e1, Option.bind_some, g1], g2, g3, fun h => absurd h hlt⟩

end Index
end Dupi
