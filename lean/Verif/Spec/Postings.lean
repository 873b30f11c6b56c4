import Verif.Model.Go
/-! # What a posting list should contain -/

namespace Dupi.Spec

/-- `l` with consecutive repetitions collapsed -/
def compress : List UInt32 → List UInt32
  | [] => []
  | [a] => [a]
  | a :: b :: l => if a = b then compress (b :: l) else a :: compress (b :: l)

/-- the documents posted to bucket `b`, in order, consecutive repetitions collapsed -/
def postings (posts : List (UInt32 × Nat)) (b : Nat) : List UInt32 :=
  compress ((posts.filter (·.2 = b)).map Prod.fst)

theorem compress_snoc (l : List UInt32) (v : UInt32) :
    compress (l ++ [v]) = if (compress l).getLast? = some v then compress l else compress l ++ [v] := by
  induction l with
  | nil => simp [compress]
  | cons a l ih =>
    cases l with
    | nil =>
      simp only [List.cons_append, List.nil_append, compress, List.getLast?_singleton, Option.some.injEq]
      split <;> simp_all
    | cons b l =>
      simp only [List.cons_append, compress] at ih ⊢
      by_cases h : a = b
      · simp only [h, if_true]; exact ih
      · have hne : compress (b :: l) ≠ [] := by
          have : ∀ (l : List UInt32) (b : UInt32), compress (b :: l) ≠ [] := by
            intro l
            induction l with
            | nil => intro b; simp [compress]
            | cons c l ih => intro b; simp only [compress]; split
                             · exact ih c
                             · simp
          exact this l b
        simp only [h, if_false, ih]
        rw [List.getLast?_cons_of_ne_nil hne]
        split <;> simp

theorem postings_snoc (posts : List (UInt32 × Nat)) (d : UInt32) (c b : Nat) :
    postings (posts ++ [(d, c)]) b =
      if c = b then (if (postings posts b).getLast? = some d then postings posts b else postings posts b ++ [d])
      else postings posts b := by
  unfold postings
  by_cases h : c = b
  · simp [h, compress_snoc]
  · simp [h]

end Dupi.Spec
