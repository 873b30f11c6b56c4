import Verif.Model.Path
/-! Lemmas on splitting and joining paths. -/

namespace Dupi

theorem splitSlash_ne_nil (p : Bytes) : splitSlash p ≠ [] := by
  cases p with
  | nil => simp [splitSlash]
  | cons b bs =>
    rw [splitSlash]
    split
    · simp
    · split <;> simp

theorem joinSlash_cons (p : Bytes) {ps : List Bytes} (h : ps ≠ []) :
    joinSlash (p :: ps) = p ++ sep :: joinSlash ps := by
  cases ps with
  | nil => exact absurd rfl h
  | cons q qs => rfl

theorem join_split (p : Bytes) : joinSlash (splitSlash p) = p := by
  induction p with
  | nil => rfl
  | cons b bs ih =>
    rw [splitSlash]
    split
    · rw [joinSlash_cons _ (splitSlash_ne_nil bs), ih]; simp_all
    · have hne := splitSlash_ne_nil bs
      cases h : splitSlash bs with
      | nil => exact absurd h hne
      | cons q qs =>
        rw [h] at ih
        cases qs with
        | nil => simp only [joinSlash] at ih ⊢; rw [ih]
        | cons r rs => simp only [joinSlash, List.cons_append] at ih ⊢; rw [ih]

theorem absPath_cons (cwd p : Bytes) : ∃ r, absPath cwd p = sep :: r := by
  unfold absPath
  split
  · split <;> exact ⟨_, rfl⟩
  · exact ⟨_, rfl⟩

theorem splitSlash_length_le (p : Bytes) : (splitSlash p).length ≤ p.length + 1 := by
  induction p with
  | nil => simp [splitSlash]
  | cons b bs ih =>
    rw [splitSlash]
    split
    · simpa using ih
    · split
      · simp
      · rename_i h; rw [h] at ih; simp at ih ⊢; omega

end Dupi
