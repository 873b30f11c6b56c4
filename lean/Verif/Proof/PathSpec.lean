import Verif.Spec.Path
import Verif.Proof.Path
/-! # `filepath.Abs` as a walk -/

namespace Dupi
open Spec

theorem notSlash_true {b : UInt8} (h : b ≠ 47) : notSlash b = true := by simp [notSlash, h]

theorem elems_cons_sep (p : Bytes) : elems (47 :: p) = elems p := by
  unfold elems
  rw [runs]
  split
  · rename_i h; simp [h, notSlash]
  · rename_i w g gs h
    rw [h]
    cases w <;> simp [notSlash]

theorem elems_cons (b : UInt8) (hb : b ≠ 47) (p : Bytes) :
    elems (b :: p) = match runs notSlash p with
      | (true, g) :: gs => (b :: g) :: (gs.filter (·.1)).map Prod.snd
      | _ => [b] :: elems p := by
  unfold elems
  rw [runs]
  split
  · rename_i h; simp [h, notSlash_true hb]
  · rename_i w g gs h
    cases w
    · simp [notSlash_true hb, h]
    · simp [notSlash_true hb, h]

theorem runs_head (b : UInt8) (p : Bytes) : ∃ g gs, runs notSlash (b :: p) = (notSlash b, g) :: gs := by
  rw [runs]
  split
  · exact ⟨_, _, rfl⟩
  · rename_i w g gs h
    split
    · rename_i hw; rw [← hw]; exact ⟨_, _, rfl⟩
    · exact ⟨_, _, rfl⟩

/-- the elements are what is not empty between slashes -/
theorem elems_split (p : Bytes) : (splitSlash p).filter (· ≠ []) = elems p := by
  induction p with
  | nil => rfl
  | cons b p ih =>
    rw [splitSlash]
    by_cases hb : b = 47
    · subst hb
      rw [if_pos rfl, elems_cons_sep, ← ih]; simp
    · rw [if_neg hb, elems_cons b hb]
      cases p with
      | nil => simp [splitSlash, runs, elems]
      | cons b' p' =>
        obtain ⟨g, gs, hr⟩ := runs_head b' p'
        rw [hr]
        have he : elems (b' :: p') = (((notSlash b', g) :: gs).filter (·.1)).map Prod.snd := by unfold elems; rw [hr]
        by_cases hb' : b' = 47
        · subst hb'
          simp only [show notSlash 47 = false from rfl] at he ⊢
          rw [← ih, splitSlash, if_pos rfl]
          simp
        · simp only [notSlash_true hb', List.filter_cons_of_pos, List.map_cons] at he ⊢
          rw [← ih] at he
          rw [splitSlash, if_neg hb'] at he ⊢
          cases hs : splitSlash p' with
          | nil => exact absurd hs (splitSlash_ne_nil p')
          | cons q qs =>
            simp only [hs] at he ⊢
            rw [List.filter_cons_of_pos (by simp)] at he ⊢
            injection he with h1 h2
            rw [h1]
            simp only [ne_eq] at h2
            rw [← h2]

theorem cleanComps_foldl (ps : List Bytes) : ∀ acc, cleanComps acc ps = (ps.filter (· ≠ [])).foldl step acc.reverse := by
  induction ps with
  | nil => intro acc; rfl
  | cons p ps ih =>
    intro acc
    rw [cleanComps]
    by_cases h0 : p = []
    · subst h0; rw [if_pos (.inl rfl), ih]; simp
    · rw [List.filter_cons_of_pos (by simpa using h0), List.foldl_cons, step]
      by_cases h1 : p = [46]
      · rw [if_pos (.inr h1), if_pos h1, ih]
      · rw [if_neg (by simp [h0, h1]), if_neg h1]
        by_cases h2 : p = [46, 46]
        · rw [if_pos h2, if_pos h2, ih, List.dropLast_reverse]
        · rw [if_neg h2, if_neg h2, ih, List.reverse_cons]

theorem joinSlash_intersperse (l : List Bytes) : joinSlash l = (l.intersperse [47]).flatten := by
  induction l with
  | nil => rfl
  | cons p l ih =>
    cases l with
    | nil => simp [joinSlash]
    | cons q l => rw [joinSlash, ih]; simp

theorem cleanRooted_eq (p : Bytes) : cleanRooted p = placeName ((elems p).foldl step []) := by
  rw [cleanRooted, placeName, joinSlash_intersperse, cleanComps_foldl, elems_split]; rfl

theorem splitSlash_append (a b : Bytes) : splitSlash (a ++ sep :: b) = splitSlash a ++ splitSlash b := by
  induction a with
  | nil => rw [List.nil_append, splitSlash]; simp [splitSlash]
  | cons x a ih =>
    rw [List.cons_append, splitSlash, splitSlash]
    by_cases hx : x = sep
    · rw [if_pos hx, if_pos hx, ih]; rfl
    · rw [if_neg hx, if_neg hx, ih]
      cases hs : splitSlash a with
      | nil => exact absurd hs (splitSlash_ne_nil a)
      | cons q qs => rfl

theorem elems_append (a b : Bytes) : elems (a ++ sep :: b) = elems a ++ elems b := by
  rw [← elems_split, ← elems_split, ← elems_split, splitSlash_append, List.filter_append]

/-- `filepath.Abs` gives the name of the place the path leads to -/
theorem absPath_place (cwd p : Bytes) : absPath cwd p = placeName (place cwd p) := by
  unfold absPath place
  split
  · rename_i b q
    by_cases hb : b = sep
    · subst hb; rw [if_pos rfl, cleanRooted_eq]; simp [sep]
    · rw [if_neg hb, cleanRooted_eq, elems_append, List.foldl_append]
      simp only [List.head?_cons, Option.some.injEq, if_neg hb]
  · rw [cleanRooted_eq, elems_append, List.foldl_append]; simp

/-- elements are not empty and have no slash -/
theorem elems_good (p : Bytes) : ∀ e ∈ elems p, e ≠ [] ∧ (47 : UInt8) ∉ e := by
  intro e he
  obtain ⟨g, hg, rfl⟩ := List.mem_map.mp he
  obtain ⟨g1, g2⟩ := List.mem_filter.mp hg
  have h := isRuns_runs notSlash p
  refine ⟨h.nonempty g g1, fun hm => ?_⟩
  have := h.uniform g g1 47 hm
  rw [g2] at this; simp [notSlash] at this

theorem foldl_step_good (es : List Bytes) : ∀ at_ : List Bytes, (∀ e ∈ es, e ≠ [] ∧ (47 : UInt8) ∉ e) →
    (∀ e ∈ at_, e ≠ [] ∧ (47 : UInt8) ∉ e) → ∀ e ∈ es.foldl step at_, e ≠ [] ∧ (47 : UInt8) ∉ e := by
  induction es with
  | nil => intro at_ _ h; exact h
  | cons e es ih =>
    intro at_ h1 h2
    rw [List.foldl_cons]
    refine ih _ (fun e he => h1 e (by simp [he])) ?_
    unfold step
    split
    · exact h2
    · split
      · intro e he; exact h2 e (List.dropLast_subset _ he)
      · intro e' he'
        rcases List.mem_append.mp he' with h | h
        · exact h2 e' h
        · rw [List.mem_singleton] at h; subst h; exact h1 _ (by simp)

theorem place_good (cwd p : Bytes) : ∀ e ∈ place cwd p, e ≠ [] ∧ (47 : UInt8) ∉ e := by
  unfold place
  refine foldl_step_good _ _ (elems_good p) ?_
  split
  · simp
  · exact foldl_step_good _ _ (elems_good cwd) (by simp)

theorem splitSlash_noSlash (p : Bytes) (h : (47 : UInt8) ∉ p) : splitSlash p = [p] := by
  induction p with
  | nil => rfl
  | cons b p ih =>
    rw [splitSlash, if_neg (by intro e; apply h; simp [e, sep]), ih (fun hm => h (by simp [hm]))]

theorem splitSlash_join (l : List Bytes) (h0 : l ≠ []) (h : ∀ e ∈ l, (47 : UInt8) ∉ e) : splitSlash (joinSlash l) = l := by
  induction l with
  | nil => exact absurd rfl h0
  | cons p l ih =>
    cases l with
    | nil => exact splitSlash_noSlash p (h p (by simp))
    | cons q l =>
      rw [joinSlash, splitSlash_append, splitSlash_noSlash p (h p (by simp)), ih (by simp) (fun e he => h e (by simp [he]))]; rfl

/-- different places have different names -/
theorem placeName_inj {a b : List Bytes} (ha : ∀ e ∈ a, e ≠ [] ∧ (47 : UInt8) ∉ e) (hb : ∀ e ∈ b, e ≠ [] ∧ (47 : UInt8) ∉ e)
    (h : placeName a = placeName b) : a = b := by
  unfold placeName at h
  injection h with _ h
  rw [← joinSlash_intersperse, ← joinSlash_intersperse] at h
  have key : ∀ l : List Bytes, (∀ e ∈ l, e ≠ [] ∧ (47 : UInt8) ∉ e) → (splitSlash (joinSlash l)).filter (· ≠ []) = l := by
    intro l hl
    by_cases h0 : l = []
    · subst h0; rfl
    · rw [splitSlash_join l h0 (fun e he => (hl e he).2), List.filter_eq_self]
      intro e he; simpa using (hl e he).1
  rw [← key a ha, h, key b hb]

theorem absPath_iff (cwd p q : Bytes) : absPath cwd p = absPath cwd q ↔ place cwd p = place cwd q := by
  rw [absPath_place, absPath_place]
  exact ⟨placeName_inj (place_good cwd p) (place_good cwd q), fun h => by rw [h]⟩

end Dupi
