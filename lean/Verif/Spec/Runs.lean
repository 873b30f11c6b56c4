/-! Specification of tokenization: the maximal runs of a list under a two-way classification. -/

namespace Dupi.Spec

/-- the maximal runs of `xs` under the classification `f`, with their class -/
def runs {α : Type} (f : α → Bool) : List α → List (Bool × List α)
  | [] => []
  | x :: xs =>
    match runs f xs with
    | [] => [(f x, [x])]
    | (w, g) :: gs => if f x = w then (w, x :: g) :: gs else (f x, [x]) :: (w, g) :: gs

/-- what it means to be the maximal runs: nothing lost, no empty run, every run uniform,
neighbours of different class -/
structure IsRuns {α : Type} (f : α → Bool) (xs : List α) (gs : List (Bool × List α)) : Prop where
  cover : gs.flatMap Prod.snd = xs
  nonempty : ∀ g ∈ gs, g.2 ≠ []
  uniform : ∀ g ∈ gs, ∀ x ∈ g.2, f x = g.1
  alternate : ∀ (i : Nat) a b, gs[i]? = some a → gs[i + 1]? = some b → a.1 ≠ b.1

/-- there is exactly one list of maximal runs: `runs` -/
theorem isRuns_runs {α : Type} (f : α → Bool) (xs : List α) : IsRuns f xs (runs f xs) := by
  induction xs with
  | nil => exact ⟨rfl, by simp [runs], by simp [runs], by simp [runs]⟩
  | cons x xs ih =>
    rw [runs]
    obtain ⟨h1, h2, h3, h4⟩ := ih
    split
    · rename_i h
      rw [h] at h1
      exact ⟨by simp at h1; simp [h1], by simp, by simp, by intro i a b h5 h6; simp at h6⟩
    · rename_i w g gs h
      rw [h] at h1 h2 h3 h4
      split
      · rename_i hw
        refine ⟨by simp at h1 ⊢; exact h1, ?_, ?_, ?_⟩
        · intro y hy
          rcases List.mem_cons.mp hy with rfl | hy
          · simp
          · exact h2 y (List.mem_cons_of_mem _ hy)
        · intro y hy z hz
          rcases List.mem_cons.mp hy with rfl | hy
          · rcases List.mem_cons.mp hz with rfl | hz
            · exact hw
            · exact h3 (w, g) (by simp) z hz
          · exact h3 y (List.mem_cons_of_mem _ hy) z hz
        · intro i a b ha hb
          cases i with
          | zero => simp at ha; subst ha; exact h4 0 (w, g) b rfl (by simpa using hb)
          | succ i => exact h4 (i + 1) a b (by simpa using ha) (by simpa using hb)
      · rename_i hw
        refine ⟨by simp at h1 ⊢; exact h1, ?_, ?_, ?_⟩
        · intro y hy
          rcases List.mem_cons.mp hy with rfl | hy
          · simp
          · exact h2 y hy
        · intro y hy z hz
          rcases List.mem_cons.mp hy with rfl | hy
          · rw [List.mem_singleton] at hz; subst hz; rfl
          · exact h3 y hy z hz
        · intro i a b ha hb
          cases i with
          | zero => simp at ha hb; subst ha; subst hb; exact hw
          | succ i => exact h4 i a b (by simpa using ha) (by simpa using hb)

theorem runs_unique {α : Type} (f : α → Bool) (gs : List (Bool × List α)) :
    ∀ xs, IsRuns f xs gs → runs f xs = gs := by
  induction gs with
  | nil => intro xs h; have := h.cover; simp at this; subst this; rfl
  | cons g gs ih =>
    intro xs h
    obtain ⟨w, g⟩ := g
    have htail : IsRuns f (gs.flatMap Prod.snd) gs :=
      ⟨rfl, fun y hy => h.nonempty y (List.mem_cons_of_mem _ hy),
        fun y hy => h.uniform y (List.mem_cons_of_mem _ hy),
        fun i a b ha hb => h.alternate (i + 1) a b (by simpa using ha) (by simpa using hb)⟩
    have hr := ih _ htail
    have hcov := h.cover
    rw [List.flatMap_cons] at hcov
    subst hcov
    have hne := h.nonempty (w, g) (by simp)
    have hun := h.uniform (w, g) (by simp)
    simp only at hne hun
    -- add the elements of g one by one, from the right
    have key : ∀ g', g' ≠ [] → (∀ x ∈ g', f x = w) →
        runs f (g' ++ gs.flatMap Prod.snd) = (w, g') :: gs := by
      intro g'
      induction g' with
      | nil => intro h; exact absurd rfl h
      | cons y ys ihy =>
        intro _ hu
        have hy : f y = w := hu y (by simp)
        rw [List.cons_append, runs]
        cases ys with
        | nil =>
          rw [List.nil_append, hr]
          cases gs with
          | nil => rw [hy]
          | cons b bs =>
            have : (w, g).1 ≠ b.1 := h.alternate 0 (w, g) b rfl rfl
            obtain ⟨bw, bg⟩ := b
            simp only [hy] at this ⊢
            rw [if_neg this]
        | cons z zs =>
          rw [ihy (by simp) (fun x hx => hu x (List.mem_cons_of_mem _ hx))]
          simp only [hy, if_true]
    exact key g hne hun

end Dupi.Spec
