import Verif.Model.Text
import Verif.Spec.Numeral
/-! # The digits printed are numerals -/

namespace Dupi.Cmd
open Spec

theorem digit_digitVal : ∀ d : Fin 16, digitVal (digit d.val) = some d.val ∧ (digit d.val = 48 → d.val = 0) := by decide +kernel

theorem digits_numeral {k : Nat} (hk : k ≤ 14) (n : Nat) : Numeral (k + 2) n (digits k n) ∧ (n ≠ 0 → (digits k n).head? ≠ some 48) := by
  induction n using Nat.strongRecOn with
  | ind n ih =>
    rw [digits]
    split
    · rename_i h
      obtain ⟨h1, h2⟩ := digit_digitVal ⟨n, by omega⟩
      refine ⟨⟨by simp, fun b hb => ⟨n, h, by rw [List.mem_singleton] at hb; rw [hb]; exact h1⟩, by simp only at h1; simp [h1], ?_⟩, ?_⟩
      · intro e; simp only [List.head?_cons, Option.some.injEq] at e; rw [e]
      · intro h0 e; simp only [List.head?_cons, Option.some.injEq] at e; exact h0 (h2 e)
    · rename_i h
      obtain ⟨⟨g1, g2, g3, g4⟩, g5⟩ := ih (n / (k + 2)) (Nat.div_lt_self (by omega) (by omega))
      have hm := Nat.mod_lt n (show k + 2 > 0 by omega)
      obtain ⟨h1, _⟩ := digit_digitVal ⟨n % (k + 2), by omega⟩
      have hne : n / (k + 2) ≠ 0 := by
        have := Nat.div_pos (show k + 2 ≤ n by omega) (by omega); omega
      have hh : (digits k (n / (k + 2)) ++ [digit (n % (k + 2))]).head? ≠ some 48 := by
        have := g5 hne
        cases hd : digits k (n / (k + 2)) with
        | nil => exact absurd hd g1
        | cons a l => rw [hd] at this; simpa using this
      refine ⟨⟨by simp, ?_, ?_, fun e => absurd e hh⟩, fun _ => hh⟩
      · intro b hb
        rcases List.mem_append.mp hb with hb | hb
        · exact g2 b hb
        · rw [List.mem_singleton] at hb; exact ⟨n % (k + 2), hm, by rw [hb]; exact h1⟩
      · simp only at h1
        rw [List.foldl_append, g3]
        simp only [List.foldl_cons, List.foldl_nil, h1, Option.getD_some]
        exact Nat.div_add_mod n (k + 2)

theorem dec_numeral (n : UInt32) : Numeral 10 n.toNat (dec n) := (digits_numeral (k := 8) (by omega) n.toNat).1

theorem hex_numeral (n : UInt32) : Numeral 16 n.toNat (hex n) := (digits_numeral (k := 14) (by omega) n.toNat).1

end Dupi.Cmd
