import Verif.Proof.Damaged
import Verif.Spec.AnyDir
/-! # Reading numbers from any bytes -/

namespace Dupi
open Spec

theorem readUvarintLoop_exact (r : Bytes) : ∀ (i x : Nat), i ≤ 10 → x < 2 ^ (7 * i) → ∀ v r', readUvarintLoop r i x = .ok (v, r') ↔
    ∃ cs b, r = cs ++ b :: r' ∧ i + cs.length < 10 ∧ (∀ c ∈ cs, 128 ≤ c.toNat) ∧ b.toNat < 128 ∧ x + sevens (cs ++ [b]) * 2 ^ (7 * i) = v ∧ v < 2 ^ 64 := by
  induction r with
  | nil =>
    intro i x hi hx v r'
    unfold readUvarintLoop
    constructor
    · intro h
      by_cases h10 : i = maxVarintLen64
      · rw [if_pos h10] at h; cases h
      · rw [if_neg h10] at h; cases h
    · rintro ⟨cs, b, h, _⟩
      have := congrArg List.length h
      simp at this
  | cons c r ih =>
    intro i x hi hx v r'
    unfold readUvarintLoop
    by_cases h10 : i = 10
    · rw [if_pos (by exact h10)]
      constructor
      · intro h; cases h
      · rintro ⟨cs, b, _, h, _⟩; omega
    · rw [if_neg (by exact h10)]
      simp only []
      by_cases hc : c < 0x80
      · rw [if_pos hc]
        have hc' : c.toNat < 128 := (u8_lt_iff c _).mp hc
        have hm : c.toNat % 128 = c.toNat := Nat.mod_eq_of_lt hc'
        have hgt : c > 1 ↔ 1 < c.toNat := u8_lt_iff 1 c
        have hb : (i = 9 ∧ 1 < c.toNat) ↔ ¬ x + c.toNat * 2 ^ (7 * i) < 2 ^ 64 := by
          by_cases h9 : i = 9
          · subst h9
            have h1 : 2 ^ (7 * 9) = 9223372036854775808 := by decide
            rw [h1] at hx ⊢
            omega
          · have h2 : 2 ^ (7 * i) ≤ 2 ^ 56 := Nat.pow_le_pow_right (by decide) (by omega)
            have h3 : c.toNat * 2 ^ (7 * i) ≤ 127 * 2 ^ (7 * i) := Nat.mul_le_mul_right _ (by omega)
            simp only [Nat.reducePow] at h2 ⊢
            constructor
            · intro h; exact absurd h.1 h9
            · intro h; omega
        have hs : ∀ cs b, c :: r = cs ++ b :: r' → (∀ c ∈ cs, 128 ≤ c.toNat) → cs = [] ∧ b = c ∧ r = r' := by
          intro cs b h1 h2
          cases cs with
          | nil => simp only [List.nil_append, List.cons.injEq] at h1; exact ⟨rfl, h1.1.symm, h1.2⟩
          | cons d cs =>
            simp only [List.cons_append, List.cons.injEq] at h1
            have := h2 d (by simp)
            rw [← h1.1] at this; omega
        by_cases hov : i = 9 ∧ 1 < c.toNat
        · rw [if_pos (by exact ⟨hov.1, hgt.mpr hov.2⟩)]
          constructor
          · intro h; cases h
          · rintro ⟨cs, b, h1, h2, h3, h4, h5, h6⟩
            obtain ⟨rfl, rfl, rfl⟩ := hs cs b h1 h3
            simp only [List.nil_append, sevens, Nat.mul_zero, Nat.add_zero, hm] at h5
            exact absurd (h5 ▸ h6) (hb.mp hov)
        · rw [if_neg (by intro h; exact hov ⟨h.1, hgt.mp h.2⟩), or_shift _ _ _ hx]
          constructor
          · intro h
            simp only [Except.ok.injEq, Prod.mk.injEq] at h
            refine ⟨[], c, by rw [h.2]; rfl, by simp; omega, by simp, hc', ?_, ?_⟩
            · simp only [List.nil_append, sevens, Nat.mul_zero, Nat.add_zero, hm]; exact h.1
            · rw [← h.1]; exact Classical.byContradiction fun hn => hov (hb.mpr hn)
          · rintro ⟨cs, b, h1, h2, h3, h4, h5, h6⟩
            obtain ⟨rfl, rfl, rfl⟩ := hs cs b h1 h3
            simp only [List.nil_append, sevens, Nat.mul_zero, Nat.add_zero, hm] at h5
            rw [h5]
      · rw [if_neg hc, u8_and7f_toNat, or_shift _ _ _ hx]
        have hc' : 128 ≤ c.toNat := by
          apply Classical.byContradiction; intro h
          exact hc ((u8_lt_iff c _).mpr (by show c.toNat < 128; omega))
        have hm : c.toNat % 128 < 128 := Nat.mod_lt _ (by decide)
        have hx' : x + c.toNat % 128 * 2 ^ (7 * i) < 2 ^ (7 * (i + 1)) := by
          have h1 : c.toNat % 128 * 2 ^ (7 * i) ≤ 127 * 2 ^ (7 * i) := Nat.mul_le_mul_right _ (by omega)
          have h2 : 2 ^ (7 * (i + 1)) = 128 * 2 ^ (7 * i) := by rw [show 7 * (i + 1) = 7 * i + 7 by omega, Nat.pow_add]; omega
          omega
        rw [ih (i + 1) _ (by omega) hx' v r']
        have e : ∀ s : Bytes, x + c.toNat % 128 * 2 ^ (7 * i) + sevens s * 2 ^ (7 * (i + 1)) = x + sevens (c :: s) * 2 ^ (7 * i) := by
          intro s
          rw [show 7 * (i + 1) = 7 * i + 7 by omega, Nat.pow_add]
          simp only [sevens, Nat.add_mul]
          rw [Nat.mul_comm 128 (sevens _), Nat.mul_assoc, Nat.mul_comm (2 ^ (7 * i)) (2 ^ 7), Nat.add_assoc]
        constructor
        · rintro ⟨cs, b, h1, h2, h3, h4, h5, h6⟩
          rw [e] at h5
          refine ⟨c :: cs, b, by rw [h1]; rfl, by simp; omega, ?_, h4, h5, h6⟩
          intro d hd
          rcases List.mem_cons.mp hd with rfl | hd
          · exact hc'
          · exact h3 d hd
        · rintro ⟨cs, b, h1, h2, h3, h4, h5, h6⟩
          cases cs with
          | nil =>
            simp only [List.nil_append, List.cons.injEq] at h1
            rw [← h1.1] at h4; omega
          | cons d cs =>
            simp only [List.cons_append, List.cons.injEq] at h1
            obtain ⟨rfl, h1⟩ := h1
            simp only [List.length_cons] at h2
            refine ⟨cs, b, h1, by omega, fun d hd => h3 d (by simp [hd]), h4, ?_, h6⟩
            rw [e]; exact h5

theorem readUvarint_exact (r : Bytes) (v : Nat) (r' : Bytes) : readUvarint r = .ok (v, r') ↔ ∃ l, r = l ++ r' ∧ Num l v := by
  unfold readUvarint
  rw [readUvarintLoop_exact r 0 0 (by omega) (by decide)]
  simp only [Nat.mul_zero, Nat.pow_zero, Nat.mul_one, Nat.zero_add]
  constructor
  · rintro ⟨cs, b, h1, h2, h3, h4, h5, h6⟩
    exact ⟨cs ++ [b], by rw [h1]; simp, cs, b, rfl, h2, h3, h4, h5, h6⟩
  · rintro ⟨l, h1, cs, b, h2, h3, h4, h5, h6, h7⟩
    subst h2
    exact ⟨cs, b, by rw [h1]; simp, h3, h4, h5, h6, h7⟩

theorem readUvarint_tame (r : Bytes) : Tame (readUvarint r) := (readUvarintLoop_tame r 0 0).1

/-- the number at the beginning of a file is determined -/
theorem Num.unique {l l' : Bytes} {v v' : Nat} {r r' : Bytes} (h : Num l v) (h' : Num l' v') (e : l ++ r = l' ++ r') : l = l' ∧ v = v' ∧ r = r' := by
  have h1 := (readUvarint_exact (l ++ r) v r).mpr ⟨l, rfl, h⟩
  have h2 := (readUvarint_exact (l ++ r) v' r').mpr ⟨l', e, h'⟩
  rw [h1] at h2
  simp only [Except.ok.injEq, Prod.mk.injEq] at h2
  obtain ⟨rfl, rfl⟩ := h2
  exact ⟨List.append_cancel_right e, rfl, rfl⟩

theorem readVarint_exact (r : Bytes) (v : Int) (r' : Bytes) : readVarint r = .ok (v, r') ↔ ∃ l k, r = l ++ r' ∧ Num l k ∧ v = signed k := by
  unfold readVarint
  simp only [bind, Except.bind]
  constructor
  · intro h
    cases hu : readUvarint r with
    | error e => rw [hu] at h; cases h
    | ok w =>
      obtain ⟨k, r1⟩ := w
      rw [hu] at h
      simp only [pure, Except.pure, Except.ok.injEq, Prod.mk.injEq] at h
      obtain ⟨rfl, rfl⟩ := h
      obtain ⟨l, h1, h2⟩ := (readUvarint_exact _ _ _).mp hu
      exact ⟨l, k, h1, h2, unzigzag_signed k⟩
  · rintro ⟨l, k, h1, h2, h3⟩
    rw [(readUvarint_exact r k r').mpr ⟨l, h1, h2⟩, h3]
    simp only [pure, Except.pure, unzigzag_signed]

theorem readFull_exact (r : Bytes) (n : Nat) (a r' : Bytes) : readFull r n = .ok (a, r') ↔ r = a ++ r' ∧ a.length = n := by
  unfold readFull
  by_cases h : n ≤ r.length
  · rw [if_pos h]
    simp only [Except.ok.injEq, Prod.mk.injEq]
    constructor
    · rintro ⟨rfl, rfl⟩; exact ⟨(List.take_append_drop _ _).symm, by rw [List.length_take]; omega⟩
    · rintro ⟨rfl, rfl⟩; simp
  · rw [if_neg h]
    constructor
    · intro hc; split at hc <;> cases hc
    · rintro ⟨rfl, rfl⟩; simp at h

end Dupi
