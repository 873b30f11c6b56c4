import Verif.Spec.Layout
import Verif.Proof.Words
/-! # The words of texts that are laid out -/

namespace Dupi
open Spec

section
variable {α : Type} (f : α → Bool)

/-- the runs of the class `true` -/
def wordRuns (xs : List α) : List (List α) := ((runs f xs).filter (·.1)).map Prod.snd

theorem runs_first (x : α) (xs : List α) : ∃ g gs, runs f (x :: xs) = (f x, g) :: gs := by
  rw [runs]
  cases runs f xs with
  | nil => exact ⟨[x], [], rfl⟩
  | cons a gs =>
    obtain ⟨w, g⟩ := a
    simp only []
    split
    · rename_i h; exact ⟨x :: g, gs, by rw [h]⟩
    · exact ⟨[x], (w, g) :: gs, rfl⟩

theorem wordRuns_skip {x : α} (hx : f x = false) (xs : List α) : wordRuns f (x :: xs) = wordRuns f xs := by
  unfold wordRuns
  rw [runs]
  cases runs f xs with
  | nil => simp [hx]
  | cons a gs =>
    obtain ⟨w, g⟩ := a
    simp only []
    split
    · rename_i h; rw [hx] at h; simp [← h]
    · simp [hx]

theorem wordRuns_skips {s : List α} (hs : ∀ x ∈ s, f x = false) (xs : List α) : wordRuns f (s ++ xs) = wordRuns f xs := by
  induction s with
  | nil => rfl
  | cons x s ih => rw [List.cons_append, wordRuns_skip f (hs x (by simp)), ih fun y hy => hs y (List.mem_cons_of_mem _ hy)]

/-- a run ends where its class does -/
theorem runs_word {w : List α} (hw : w ≠ []) (hf : ∀ x ∈ w, f x = true) {xs : List α} (hx : ∀ x, xs.head? = some x → f x = false) :
    runs f (w ++ xs) = (true, w) :: runs f xs := by
  induction w with
  | nil => exact absurd rfl hw
  | cons x w ih =>
    have h1 : f x = true := hf x (by simp)
    rw [List.cons_append, runs]
    cases w with
    | nil =>
      rw [List.nil_append]
      cases xs with
      | nil => simp [runs, h1]
      | cons y ys =>
        obtain ⟨g, gs, h2⟩ := runs_first f y ys
        rw [h2, hx y rfl, h1]; rfl
    | cons y w =>
      rw [ih (by simp) fun z hz => hf z (List.mem_cons_of_mem _ hz)]
      simp [h1]

theorem wordRuns_word {w : List α} (hw : w ≠ []) (hf : ∀ x ∈ w, f x = true) {xs : List α} (hx : ∀ x, xs.head? = some x → f x = false) :
    wordRuns f (w ++ xs) = w :: wordRuns f xs := by
  unfold wordRuns
  rw [runs_word f hw hf hx]
  simp

/-- words with something after each of them, and then a rest -/
theorem wordRuns_words {ps : List (List α × List α)} (h1 : ∀ p ∈ ps, p.1 ≠ [] ∧ ∀ x ∈ p.1, f x = true) (h2 : ∀ p ∈ ps, p.2 ≠ [] ∧ ∀ x ∈ p.2, f x = false)
    (xs : List α) : wordRuns f ((ps.flatMap fun p => p.1 ++ p.2) ++ xs) = ps.map Prod.fst ++ wordRuns f xs := by
  induction ps with
  | nil => rfl
  | cons p ps ih =>
    obtain ⟨a1, a2⟩ := h1 p (by simp)
    obtain ⟨b1, b2⟩ := h2 p (by simp)
    have hh : ∀ x, (p.2 ++ ((ps.flatMap fun p => p.1 ++ p.2) ++ xs)).head? = some x → f x = false := by
      intro x hx
      cases h : p.2 with
      | nil => exact absurd h b1
      | cons y ys =>
        rw [h] at hx
        simp only [List.cons_append, List.head?_cons, Option.some.injEq] at hx
        exact b2 x (by rw [h, ← hx]; simp)
    rw [List.flatMap_cons, List.append_assoc, List.append_assoc, wordRuns_word f a1 a2 hh, wordRuns_skips f b2,
      ih (fun q hq => h1 q (List.mem_cons_of_mem _ hq)) (fun q hq => h2 q (List.mem_cons_of_mem _ hq))]
    rfl

end

variable {u : Uni}

theorem wordChars_utf8 (u : Uni) (cs : List Char) : wordChars u (utf8 cs) = wordRuns (isWordChar u) cs.dropLast := by
  unfold wordChars wordRuns
  rw [text_utf8]

theorem Spec.Laid.words {s0 : List Char} {ps : List (List Char × List Char)} (h : Laid u s0 ps) : wordChars u (utf8 (laidOut s0 ps)) = ps.map Prod.fst := by
  rw [wordChars_utf8, laidOut]
  rcases List.eq_nil_or_concat ps with rfl | ⟨ps', p, rfl⟩
  · rw [List.flatMap_nil, List.append_nil, ← List.append_nil s0.dropLast,
      wordRuns_skips _ (fun ch hch => h.start ch (List.dropLast_subset _ hch))]
    rfl
  · rw [List.concat_eq_append] at *
    obtain ⟨a1, a2⟩ := h.word p (by simp)
    obtain ⟨b1, b2⟩ := h.after p (by simp)
    rw [List.flatMap_append, List.flatMap_singleton, ← List.append_assoc, List.dropLast_append_of_ne_nil (by simp [b1]),
      List.dropLast_append_of_ne_nil b1, List.append_assoc, wordRuns_skips _ h.start,
      wordRuns_words _ (fun q hq => h.word q (by simp [hq])) (fun q hq => h.after q (by simp [hq])),
      wordRuns_word _ a1 a2 (fun x hx => b2 x (List.dropLast_subset _ (List.mem_of_mem_head? hx))),
      ← List.append_nil p.2.dropLast, wordRuns_skips _ fun ch hch => b2 ch (List.dropLast_subset _ hch)]
    simp [wordRuns, runs]

/-- a text that ends in the middle of a word, or with it -/
theorem Spec.Laid.ends {s0 : List Char} {ps : List (List Char × List Char)} (h : Laid u s0 ps) {w : List Char} (hw : ∀ ch ∈ w, isWordChar u ch = true) (ch : Char) :
    wordChars u (utf8 (laidOut s0 ps ++ (w ++ [ch]))) = ps.map Prod.fst ++ if w = [] then [] else [w] := by
  rw [wordChars_utf8, laidOut, ← List.append_assoc, List.dropLast_concat, List.append_assoc, wordRuns_skips _ h.start, wordRuns_words _ h.word h.after]
  by_cases hn : w = []
  · rw [if_pos hn, hn]; rfl
  · rw [if_neg hn]
    have := wordRuns_word (isWordChar u) hn hw (xs := []) (by simp)
    rw [List.append_nil] at this
    rw [this]; rfl

theorem Spec.SameWords.hashes {dat dat' : Bytes} (h : SameWords u dat dat') : (wordChars u dat).map (hashOf u) = (wordChars u dat').map (hashOf u) := by
  obtain ⟨s0, ps, s0', ps', h1, h2, rfl, rfl, h3⟩ := h.ex
  rw [h1.words, h2.words]
  have := congrArg (List.map fun w => UInt32.ofNat (fnv1 ((utf8 w).map UInt8.toNat))) h3
  simpa [List.map_map, hashOf, Function.comp_def] using this

end Dupi
