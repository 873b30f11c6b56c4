import Verif.Model.Csv
import Verif.Spec.Csv
/-! # Reading back what is written -/

namespace Dupi.Csv
open Spec

/-! ## Lines -/

theorem readLine_nil : readLine [] = ([], []) := rfl

theorem readLine_nl (s : Bytes) : readLine (10 :: s) = ([10], s) := by
  simp [readLine, List.findIdx?_cons, normalize]

theorem readLine_crnl (s : Bytes) : readLine (13 :: 10 :: s) = ([10], s) := by
  simp [readLine, List.findIdx?_cons, normalize]

theorem readLine_isNL {nl : Bytes} (h : IsNL nl) (s : Bytes) : readLine (nl ++ s) = ([10], s) := by
  rcases h with rfl | rfl
  · exact readLine_nl s
  · exact readLine_crnl s

theorem readLine_cons {b : UInt8} {s : Bytes} (h1 : b ≠ 10) (h2 : b = 13 → s ≠ [] ∧ s.head? ≠ some 10) :
    readLine (b :: s) = (b :: (readLine s).1, (readLine s).2) := by
  have hb : (b == (10 : UInt8)) = false := by simpa using h1
  unfold readLine
  rw [List.findIdx?_cons, hb]
  cases hi : s.findIdx? (· == 10) with
  | some i =>
    simp only [Bool.false_eq_true, if_false, Option.map_some, List.drop_succ_cons, List.take_succ_cons, Prod.mk.injEq, and_true]
    have hlt : i < s.length := (List.findIdx?_eq_some_iff_getElem.mp hi).1
    have hl : (s.take (i + 1)).length = i + 1 := by simp; omega
    unfold normalize
    rw [List.length_cons, hl]
    have e1 : (b :: List.take (i + 1) s).getLast? = (List.take (i + 1) s).getLast? := by
      rw [List.getLast?_cons]
      cases hx : (List.take (i + 1) s).getLast? with
      | none => rw [List.getLast?_eq_none_iff] at hx; rw [hx] at hl; simp at hl
      | some y => rfl
    rw [e1]
    rcases i with _ | i
    · have h0 : ∃ t, s = 10 :: t := by
        obtain ⟨h, hp, _⟩ := List.findIdx?_eq_some_iff_getElem.mp hi
        cases s with
        | nil => simp at h
        | cons x t => simp at hp; exact ⟨t, by rw [hp]⟩
      obtain ⟨t, rfl⟩ := h0
      have : b ≠ 13 := fun e => (h2 e).2 rfl
      simp [this]
    · have e2 : (b :: List.take (i + 1 + 1) s)[i + 1 + 1 + 1 - 2]? = (List.take (i + 1 + 1) s)[i + 1 + 1 - 2]? := by
        rw [show i + 1 + 1 + 1 - 2 = (i + 1 + 1 - 2) + 1 by omega, List.getElem?_cons_succ]
      rw [e2]
      by_cases hc : (List.take (i + 1 + 1) s)[i + 1 + 1 - 2]? = some 13 ∧ (List.take (i + 1 + 1) s).getLast? = some 10
      · rw [if_pos ⟨by omega, hc⟩, if_pos ⟨by omega, hc⟩, show i + 1 + 1 + 1 - 2 = (i + 1 + 1 - 2) + 1 by omega, List.take_succ_cons]
        rfl
      · rw [if_neg fun h => hc h.2, if_neg fun h => hc h.2]
  | none =>
    simp only [Bool.false_eq_true, if_false, Option.map_none]
    cases s with
    | nil =>
      have : b ≠ 13 := fun e => (h2 e).1 rfl
      simp [this]
    | cons x t =>
      rw [List.getLast?_cons_cons]
      split
      · simp
      · rfl

theorem readLine_append {x s : Bytes} (h : ∀ b ∈ x, b ≠ 10 ∧ b ≠ 13) : readLine (x ++ s) = (x ++ (readLine s).1, (readLine s).2) := by
  induction x with
  | nil => rfl
  | cons b x ih =>
    rw [List.cons_append, readLine_cons (h b (by simp)).1 (fun e => absurd e (h b (by simp)).2), ih fun b hb => h b (by simp [hb])]
    rfl

/-! ## Quoted fields -/

/-- a byte that is nothing special is copied -/
theorem quoted_skip {b : UInt8} (h : b ≠ 34) {line : Bytes} (hl : line ≠ []) (fuel : Nat) (rest buf : Bytes) :
    quoted fuel (b :: line) rest buf = quoted fuel line rest (buf ++ [b]) := by
  cases fuel with
  | zero => rfl
  | succ fuel =>
    have hb : (b == (34 : UInt8)) = false := by simpa using h
    have hp : 0 < line.length := List.length_pos_iff.mpr hl
    rw [quoted, quoted, List.findIdx?_cons, hb]
    cases hi : line.findIdx? (· == 34) with
    | some i => simp [List.append_assoc]
    | none => simp [hp]

theorem quoted_nl (fuel : Nat) (rest buf : Bytes) : quoted (fuel + 1) [10] rest buf = quoted fuel (readLine rest).1 (readLine rest).2 (buf ++ [10]) := by
  rw [quoted]; simp [List.findIdx?_cons]

theorem quoted_quote (fuel : Nat) (line rest buf : Bytes) : quoted (fuel + 1) (34 :: 34 :: line) rest buf = quoted fuel line rest (buf ++ [34]) := by
  rw [quoted]; simp [List.findIdx?_cons]

theorem quoted_comma (fuel : Nat) (line rest buf : Bytes) : quoted (fuel + 1) (34 :: 44 :: line) rest buf = some (buf, some line, rest) := by
  rw [quoted]; simp [List.findIdx?_cons]

theorem quoted_end {line : Bytes} (h : line = [] ∨ line = [10]) (fuel : Nat) (rest buf : Bytes) : quoted (fuel + 1) (34 :: line) rest buf = some (buf, none, rest) := by
  rw [quoted]
  rcases h with rfl | rfl <;> simp [List.findIdx?_cons, lengthNL]

/-- inside a quoted field: up to the quote at its end -/
theorem quoted_text (f : Bytes) (hf : ¬ [13, 10] <:+: f) (tail : Bytes) : ∀ (fuel : Nat) (buf : Bytes), f.length ≤ fuel →
    ∃ fuel', fuel ≤ fuel' + f.length ∧
      quoted fuel (readLine (f.flatMap (fun b => if b = 34 then [34, 34] else [b]) ++ 34 :: tail)).1
        (readLine (f.flatMap (fun b => if b = 34 then [34, 34] else [b]) ++ 34 :: tail)).2 buf =
      quoted fuel' (34 :: (readLine tail).1) (readLine tail).2 (buf ++ f) := by
  induction f with
  | nil =>
    intro fuel buf _
    refine ⟨fuel, by simp, ?_⟩
    rw [List.flatMap_nil, List.nil_append, readLine_cons (by decide) (fun e => absurd e (by decide)), List.append_nil]
  | cons b f ih =>
    intro fuel buf hlen
    have hf' : ¬ [13, 10] <:+: f := fun h => hf (h.trans (List.suffix_cons b f).isInfix)
    rw [List.length_cons] at hlen
    by_cases h34 : b = 34
    · subst h34
      obtain ⟨fuel', k1, k2⟩ := ih hf' (fuel - 1) (buf ++ [34]) (by omega)
      refine ⟨fuel', by simp only [List.length_cons]; omega, ?_⟩
      simp only [List.flatMap_cons, if_true, List.cons_append, List.nil_append]
      rw [readLine_cons (by decide) (fun e => absurd e (by decide)), readLine_cons (by decide) (fun e => absurd e (by decide))]
      obtain ⟨n, rfl⟩ : ∃ n, fuel = n + 1 := ⟨fuel - 1, by omega⟩
      rw [quoted_quote]
      rw [Nat.add_sub_cancel] at k2
      rw [k2, List.append_assoc, List.singleton_append]
    · by_cases h10 : b = 10
      · subst h10
        obtain ⟨fuel', k1, k2⟩ := ih hf' (fuel - 1) (buf ++ [10]) (by omega)
        refine ⟨fuel', by simp only [List.length_cons]; omega, ?_⟩
        simp only [List.flatMap_cons, h34, if_false, List.cons_append, List.nil_append]
        rw [readLine_nl]
        obtain ⟨n, rfl⟩ : ∃ n, fuel = n + 1 := ⟨fuel - 1, by omega⟩
        rw [quoted_nl]
        rw [Nat.add_sub_cancel] at k2
        rw [k2, List.append_assoc, List.singleton_append]
      · obtain ⟨fuel', k1, k2⟩ := ih hf' fuel (buf ++ [b]) (by omega)
        refine ⟨fuel', by simp only [List.length_cons]; omega, ?_⟩
        simp only [List.flatMap_cons, h34, if_false, List.cons_append, List.nil_append]
        have hne : f.flatMap (fun b => if b = 34 then [34, 34] else [b]) ++ 34 :: tail ≠ [] := by simp
        have hhd : b = 13 → f.flatMap (fun b => if b = 34 then [34, 34] else [b]) ++ 34 :: tail ≠ [] ∧
            (f.flatMap (fun b => if b = 34 then [34, 34] else [b]) ++ 34 :: tail).head? ≠ some 10 := by
          intro e
          refine ⟨hne, ?_⟩
          cases f with
          | nil => simp
          | cons y f =>
            by_cases hy : y = 34
            · simp [hy]
            · simp only [List.flatMap_cons, hy, if_false, List.cons_append, List.nil_append, List.head?_cons, Option.some.injEq, ne_eq]
              rintro rfl
              subst e
              exact hf ⟨[], f, rfl⟩
        rw [readLine_cons h10 hhd]
        have hl1 : (readLine (f.flatMap (fun b => if b = 34 then [34, 34] else [b]) ++ 34 :: tail)).1 ≠ [] := by
          cases f with
          | nil => rw [List.flatMap_nil, List.nil_append, readLine_cons (by decide) (fun e => absurd e (by decide))]; simp
          | cons y f =>
            by_cases hy : y = 34
            · subst hy
              simp only [List.flatMap_cons, if_true, List.cons_append, List.nil_append]
              rw [readLine_cons (by decide) (fun e => absurd e (by decide))]; simp
            · simp only [List.flatMap_cons, hy, if_false, List.cons_append, List.nil_append]
              by_cases hy10 : y = 10
              · subst hy10; rw [readLine_nl]; simp
              · rw [readLine_cons hy10 ?_]
                · simp
                · rintro rfl
                  refine ⟨by simp, ?_⟩
                  cases f with
                  | nil => simp
                  | cons z f =>
                    by_cases hz : z = 34
                    · simp [hz]
                    · simp only [List.flatMap_cons, hz, if_false, List.cons_append, List.nil_append, List.head?_cons, Option.some.injEq, ne_eq]
                      rintro rfl
                      exact hf' ⟨[], f, rfl⟩
        rw [quoted_skip h34 hl1, k2, List.append_assoc, List.singleton_append]

/-! ## Records -/

theorem fields_plain {line : Bytes} (h : ∀ l, line ≠ 34 :: l) (fuel : Nat) (rest : Bytes) (acc : List Bytes) :
    fields (fuel + 1) line rest acc = match line.findIdx? (· == 44) with
      | some i => fields fuel (line.drop (i + 1)) rest (acc ++ [line.take i])
      | none => some (acc ++ [line.take (line.length - lengthNL line)], rest) := by
  rw [fields]
  · rfl
  · exact fun l e => h l e

theorem fields_quoted (line : Bytes) (fuel : Nat) (rest : Bytes) (acc : List Bytes) :
    fields (fuel + 1) (34 :: line) rest acc = match quoted fuel line rest [] with
      | none => none
      | some (f, some line'', rest') => fields fuel line'' rest' (acc ++ [f])
      | some (f, none, rest') => some (acc ++ [f], rest') := rfl

/-- a field with a comma after it -/
theorem fields_comma {a ta : Bytes} (h : FieldText a ta) (t : Bytes) (acc : List Bytes) {fuel : Nat} (hf : a.length + 2 ≤ fuel) :
    fields fuel (readLine (ta ++ 44 :: t)).1 (readLine (ta ++ 44 :: t)).2 acc = fields (fuel - 1) (readLine t).1 (readLine t).2 (acc ++ [a]) := by
  have hc (t : Bytes) : readLine (44 :: t) = (44 :: (readLine t).1, (readLine t).2) := readLine_cons (by decide) (fun e => absurd e (by decide))
  obtain ⟨n, rfl⟩ : ∃ n, fuel = n + 1 := ⟨fuel - 1, by omega⟩
  rw [Nat.add_sub_cancel]
  cases h with
  | plain hp =>
    rw [readLine_append fun b hb => ⟨(hp b hb).2.2.1, (hp b hb).2.2.2⟩, hc]
    have hi : (a ++ 44 :: (readLine t).1).findIdx? (· == 44) = some a.length := by
      rw [List.findIdx?_append, List.findIdx?_eq_none_iff.mpr fun b hb => by simpa using (hp b hb).2.1]
      simp [List.findIdx?_cons]
    have hh : ∀ l, a ++ 44 :: (readLine t).1 ≠ 34 :: l := by
      intro l e
      cases a with
      | nil => simp at e
      | cons x a => simp only [List.cons_append, List.cons.injEq] at e; exact (hp x (by simp)).1 e.1
    rw [fields_plain hh, hi]
    simp
  | quoted hq =>
    rw [List.cons_append, List.cons_append, List.append_assoc, List.singleton_append, readLine_cons (by decide) (fun e => absurd e (by decide)), fields_quoted]
    obtain ⟨fuel', k1, k2⟩ := quoted_text a hq (44 :: t) n [] (by omega)
    obtain ⟨m, rfl⟩ : ∃ m, fuel' = m + 1 := ⟨fuel' - 1, by omega⟩
    rw [k2, hc, quoted_comma]
    rfl

/-- the last field -/
theorem fields_end {b tb : Bytes} (h : FieldText b tb) {tail : Bytes} (ht : tail = [] ∨ ∃ nl t, IsNL nl ∧ tail = nl ++ t) (acc : List Bytes) {fuel : Nat}
    (hf : b.length + 2 ≤ fuel) :
    fields fuel (readLine (tb ++ tail)).1 (readLine (tb ++ tail)).2 acc = some (acc ++ [b], (readLine tail).2) := by
  have hl : (readLine tail).1 = [] ∨ (readLine tail).1 = [10] := by
    rcases ht with rfl | ⟨nl, t, h, rfl⟩
    · exact .inl rfl
    · exact .inr (by rw [readLine_isNL h])
  obtain ⟨n, rfl⟩ : ∃ n, fuel = n + 1 := ⟨fuel - 1, by omega⟩
  cases h with
  | plain hp =>
    rw [readLine_append fun x hx => ⟨(hp x hx).2.2.1, (hp x hx).2.2.2⟩]
    have hh : ∀ l, b ++ (readLine tail).1 ≠ 34 :: l := by
      intro l e
      cases b with
      | nil => rcases hl with h | h <;> rw [h] at e <;> simp at e
      | cons x b => simp only [List.cons_append, List.cons.injEq] at e; exact (hp x (by simp)).1 e.1
    have hi : (b ++ (readLine tail).1).findIdx? (· == 44) = none := by
      rw [List.findIdx?_eq_none_iff]
      intro x hx
      rcases List.mem_append.mp hx with hx | hx
      · simpa using (hp x hx).2.1
      · rcases hl with h | h <;> rw [h] at hx <;> simp at hx
        subst hx; rfl
    rw [fields_plain hh, hi]
    simp only [Option.some.injEq, Prod.mk.injEq, and_true]
    congr 2
    rcases hl with h | h
    · rw [h, List.append_nil]
      have : lengthNL b = 0 := by
        unfold lengthNL
        rw [if_neg]
        intro e
        exact (hp 10 (List.mem_of_getLast? e)).2.2.1 rfl
      rw [this, Nat.sub_zero, List.take_length]
    · rw [h]
      have : lengthNL (b ++ [10]) = 1 := by simp [lengthNL]
      rw [this, List.length_append, List.length_singleton, Nat.add_sub_cancel, List.take_left]
  | quoted hq =>
    rw [List.cons_append, List.cons_append, List.append_assoc, List.singleton_append, readLine_cons (by decide) (fun e => absurd e (by decide)), fields_quoted]
    obtain ⟨fuel', k1, k2⟩ := quoted_text b hq tail n [] (by omega)
    obtain ⟨m, rfl⟩ : ∃ m, fuel' = m + 1 := ⟨fuel' - 1, by omega⟩
    rw [k2, quoted_end hl]
    rfl

theorem escape_le (a : Bytes) : a.length ≤ (a.flatMap fun b => if b = 34 then [34, 34] else [b]).length := by
  induction a with
  | nil => simp
  | cons x a ih =>
    rw [List.flatMap_cons, List.length_append, List.length_cons]
    have : 1 ≤ (if x = 34 then [34, 34] else [x]).length := by split <;> simp
    omega

theorem FieldText.le {a ta : Bytes} (h : FieldText a ta) : a.length ≤ ta.length := by
  cases h with
  | plain _ => exact Nat.le_refl _
  | quoted _ =>
    have := escape_le a
    rw [List.cons_append, List.length_cons, List.length_append]
    omega

/-- the first line of a record is not empty -/
theorem line_ne {ta : Bytes} {a : Bytes} (h : FieldText a ta) (t : Bytes) :
    lengthNL (readLine (ta ++ 44 :: t)).1 ≠ (readLine (ta ++ 44 :: t)).1.length := by
  have hc : readLine (44 :: t) = (44 :: (readLine t).1, (readLine t).2) := readLine_cons (by decide) (fun e => absurd e (by decide))
  have key : ∀ (x : UInt8) (l : Bytes), x ≠ 10 → lengthNL (x :: l) ≠ (x :: l).length := by
    intro x l hx
    unfold lengthNL
    cases l with
    | nil => simp [hx]
    | cons y l => rw [List.length_cons, List.length_cons]; split <;> omega
  cases h with
  | plain hp =>
    rw [readLine_append fun x hx => ⟨(hp x hx).2.2.1, (hp x hx).2.2.2⟩, hc]
    cases ta with
    | nil => exact key _ _ (by decide)
    | cons x a => exact key _ _ (hp x (by simp)).2.2.1
  | quoted hq =>
    rw [List.cons_append, List.cons_append, readLine_cons (by decide) (fun e => absurd e (by decide))]
    exact key _ _ (by decide)

/-- one record -/
theorem read_record {a b ta tb : Bytes} (ha : FieldText a ta) (hb : FieldText b tb) {tail : Bytes} (ht : tail = [] ∨ ∃ nl t, IsNL nl ∧ tail = nl ++ t) :
    read (ta ++ 44 :: (tb ++ tail)) = some (.record a b, (readLine tail).2) := by
  have h1 := FieldText.le ha
  have h2 := FieldText.le hb
  have hne : ta ++ 44 :: (tb ++ tail) ≠ [] := by simp
  unfold read
  rw [skipEmpty, if_neg hne, if_neg (line_ne ha _)]
  simp only
  have hlen : (ta ++ 44 :: (tb ++ tail)).length = ta.length + tb.length + tail.length + 1 := by simp; omega
  rw [fields_comma ha _ _ (by omega), fields_end hb ht _ (by omega)]
  rfl

theorem skip_fuel : ∀ (f g : Nat) (s : Bytes), s.length < f → s.length < g → skipEmpty f s = skipEmpty g s := by
  intro f
  induction f with
  | zero => intro g s h; omega
  | succ f ih =>
    intro g s h1 h2
    obtain ⟨g, rfl⟩ : ∃ n, g = n + 1 := ⟨g - 1, by omega⟩
    rw [skipEmpty, skipEmpty]
    by_cases hs : s = []
    · rw [if_pos hs, if_pos hs]
    · rw [if_neg hs, if_neg hs]
      split
      · have : (readLine s).2.length < s.length := by
          unfold readLine
          split
          · have := List.length_pos_iff.mpr hs
            simp; omega
          · exact List.length_pos_iff.mpr hs
        exact ih _ _ (by omega) (by omega)
      · rfl

/-- an empty line -/
theorem skip_blank {nl : Bytes} (h : IsNL nl) (t : Bytes) : skipEmpty ((nl ++ t).length + 1) (nl ++ t) = skipEmpty (t.length + 1) t := by
  have hne : nl ++ t ≠ [] := by rcases h with rfl | rfl <;> simp
  rw [skipEmpty, if_neg hne, readLine_isNL h]
  rw [if_pos (by simp [lengthNL])]
  have : 0 < nl.length := by rcases h with rfl | rfl <;> simp
  exact skip_fuel _ _ t (by rw [List.length_append]; omega) (by omega)

/-- what `Read` sees first -/
theorem CsvText.first {rs : List (Bytes × Bytes)} {s : Bytes} (h : CsvText rs s) :
    (rs = [] ∧ skipEmpty (s.length + 1) s = some none) ∨
    ∃ a b ta tb tail rs', rs = (a, b) :: rs' ∧ FieldText a ta ∧ FieldText b tb ∧ (tail = [] ∨ ∃ nl t, IsNL nl ∧ tail = nl ++ t) ∧
      skipEmpty (s.length + 1) s = some (some (readLine (ta ++ 44 :: (tb ++ tail)))) ∧ (ta ++ 44 :: (tb ++ tail)).length ≤ s.length ∧
      CsvText rs' (readLine tail).2 ∧ (readLine tail).2.length < s.length := by
  induction h with
  | nil => exact .inl ⟨rfl, rfl⟩
  | @blank rs nl t hnl h ih =>
    rw [skip_blank hnl]
    rcases ih with ih | ⟨a, b, ta, tb, tail, rs', h1, h2, h3, h4, h5, h6, h7, h8⟩
    · exact .inl ih
    · exact .inr ⟨a, b, ta, tb, tail, rs', h1, h2, h3, h4, h5, Nat.le_trans h6 (by simp), h7, Nat.lt_of_lt_of_le h8 (by simp)⟩
  | @cons a b ta tb nl t rs ha hb hnl h ih =>
    have e : (readLine (nl ++ t)).2 = t := by rw [readLine_isNL hnl]
    refine .inr ⟨a, b, ta, tb, nl ++ t, rs, rfl, ha, hb, .inr ⟨nl, t, hnl, rfl⟩, ?_, Nat.le_refl _, by rw [e]; exact h, ?_⟩
    · rw [skipEmpty, if_neg (by simp), if_neg (line_ne ha _)]
    · rw [e]; simp only [List.length_append, List.length_cons]; omega
  | @last a b ta tb ha hb =>
    refine .inr ⟨a, b, ta, tb, [], [], rfl, ha, hb, .inl rfl, ?_, ?_, .nil, ?_⟩
    · rw [List.append_nil, skipEmpty, if_neg (by simp), if_neg (line_ne ha _)]
    · rw [List.append_nil]; exact Nat.le_refl _
    · rw [readLine_nil]; simp only [List.length_append, List.length_cons, List.length_nil]; omega

theorem read_text {rs : List (Bytes × Bytes)} {s : Bytes} (h : CsvText rs s) :
    (rs = [] ∧ read s = some (.eof, [])) ∨
    ∃ a b rs' s', rs = (a, b) :: rs' ∧ read s = some (.record a b, s') ∧ CsvText rs' s' ∧ s'.length < s.length := by
  rcases CsvText.first h with ⟨h1, h2⟩ | ⟨a, b, ta, tb, tail, rs', h1, ha, hb, h4, h5, h6, h7, h8⟩
  · exact .inl ⟨h1, by rw [read, h2]⟩
  · refine .inr ⟨a, b, rs', _, h1, ?_, h7, h8⟩
    have l1 := FieldText.le ha
    have l2 := FieldText.le hb
    simp only [List.length_append, List.length_cons] at h6
    rw [read, h5]
    simp only
    rw [fields_comma ha _ _ (by omega), fields_end hb h4 _ (by omega)]
    rfl

theorem readAll_text {rs : List (Bytes × Bytes)} : ∀ {s : Bytes} {fuel : Nat}, CsvText rs s → s.length < fuel → readAll fuel s = some (rs, false) := by
  induction rs with
  | nil =>
    intro s fuel h hf
    obtain ⟨n, rfl⟩ : ∃ n, fuel = n + 1 := ⟨fuel - 1, by omega⟩
    rcases read_text h with ⟨_, h2⟩ | ⟨a, b, rs', s', h1, _⟩
    · rw [readAll, h2]
    · cases h1
  | cons r rs ih =>
    intro s fuel h hf
    obtain ⟨n, rfl⟩ : ∃ n, fuel = n + 1 := ⟨fuel - 1, by omega⟩
    rcases read_text h with ⟨h1, _⟩ | ⟨a, b, rs', s', h1, h2, h3, h4⟩
    · cases h1
    · injection h1 with e1 e2
      subst e1 e2
      rw [readAll, h2]
      simp only
      rw [ih h3 (by omega)]
      rfl

/-! ## Writing -/

theorem chunks_flatten (f : Bytes) : ∀ cur, (chunks cur f).flatten = cur ++ f.flatMap (fun b => if b = 34 then [34, 34] else [b]) := by
  induction f with
  | nil => intro cur; simp [chunks]
  | cons b f ih =>
    intro cur
    rw [chunks]
    split
    · rename_i h; subst h; simp [ih]
    · rename_i h
      split
      · simp [ih, h]
      · simp [ih, h]

theorem fieldPieces_text (space : Bytes → Bool) {f : Bytes} (h : ¬ [13, 10] <:+: f) : FieldText f (fieldPieces space f).flatten := by
  unfold fieldPieces
  split
  · rw [List.flatten_append, List.flatten_cons, chunks_flatten, List.nil_append]
    exact .quoted h
  · rename_i hq
    rw [List.flatten_cons, List.flatten_nil, List.append_nil]
    refine .plain fun b hb => ?_
    have hne : f ≠ [] := List.ne_nil_of_mem hb
    simp only [needsQuotes, hne, ne_eq, not_false_iff, decide_true, Bool.true_and, Bool.or_eq_true, not_or, Bool.not_eq_true] at hq
    have := List.any_eq_false.mp hq.1.2 b hb
    simp only [Bool.or_eq_true, beq_iff_eq, not_or] at this
    exact ⟨this.1.1.2, this.1.1.1, this.2, this.1.2⟩

theorem writeRecord_eq (space : Bytes → Bool) (r : Bytes × Bytes) :
    writeRecord space r = (fieldPieces space r.1).flatten ++ 44 :: ((fieldPieces space r.2).flatten ++ [10]) := by
  simp [writeRecord, recordPieces]

theorem writeRecords_text (space : Bytes → Bool) {rs : List (Bytes × Bytes)} (h : ∀ r ∈ rs, ¬ [13, 10] <:+: r.1 ∧ ¬ [13, 10] <:+: r.2) :
    CsvText rs (rs.flatMap (writeRecord space)) := by
  induction rs with
  | nil => exact .nil
  | cons r rs ih =>
    obtain ⟨a, b⟩ := r
    obtain ⟨h1, h2⟩ := h (a, b) (by simp)
    have := CsvText.cons (fieldPieces_text space h1) (fieldPieces_text space h2) (.inl rfl) (ih fun r hr => h r (by simp [hr]))
    rw [List.flatMap_cons, writeRecord_eq]
    simpa only [List.append_assoc, List.cons_append] using this

/-! ## The buffer -/

theorem Buf.str_spec (direct : Bool) : ∀ (n : Nat) (o : Buf) (s : Bytes), s.length + o.buf.length ≤ n → o.buf.length ≤ 4096 →
    (o.str direct s).out ++ (o.str direct s).buf = o.out ++ o.buf ++ s ∧ (o.str direct s).buf.length ≤ 4096 ∧
      (s.length + o.buf.length ≤ 4096 → (o.str direct s).out = o.out) ∧ (s.length = 1 → (o.str direct s).buf ≠ []) := by
  intro n
  induction n with
  | zero =>
    intro o s hn hb
    rw [Buf.str, if_pos (by omega)]
    exact ⟨by simp, by simp only [List.length_append]; omega, fun _ => rfl, fun h => by omega⟩
  | succ n ih =>
    intro o s hn hb
    rw [Buf.str]
    split
    · rename_i hs
      exact ⟨by simp, by simp only [List.length_append]; omega, fun _ => rfl, fun h => List.ne_nil_of_length_pos (by simp only [List.length_append]; omega)⟩
    · rename_i hs
      split
      · rename_i hc
        refine ⟨by simp [hc.1], by simp, fun h => absurd h (by omega), fun h => ?_⟩
        rw [hc.1, List.length_nil] at hs
        omega
      · rename_i hc
        obtain ⟨q1, q2, q3, q4⟩ := ih ⟨o.out ++ (o.buf ++ s.take (4096 - o.buf.length)), []⟩ (s.drop (4096 - o.buf.length))
          (by simp only [List.length_drop, List.length_nil]; omega) (by simp)
        refine ⟨?_, q2, fun h => absurd h (by omega), fun h => q4 ?_⟩
        · rw [q1]; simp
        · rw [List.length_drop]; omega

theorem Buf.write_spec (direct : Bool) (l : List Bytes) : ∀ (o : Buf), o.buf.length ≤ 4096 →
    (o.write direct l).out ++ (o.write direct l).buf = o.out ++ o.buf ++ l.flatten ∧ (o.write direct l).buf.length ≤ 4096 ∧
      (l.flatten.length + o.buf.length ≤ 4096 → (o.write direct l).out = o.out) := by
  induction l with
  | nil => intro o h; exact ⟨by simp [Buf.write], h, fun _ => rfl⟩
  | cons s l ih =>
    intro o h
    have hw : o.write direct (s :: l) = (o.str direct s).write direct l := rfl
    rw [hw]
    obtain ⟨p1, p2, p3, _⟩ := Buf.str_spec direct _ o s (Nat.le_refl _) h
    obtain ⟨q1, q2, q3⟩ := ih _ p2
    refine ⟨by rw [q1, p1]; simp, q2, fun hl => ?_⟩
    rw [List.flatten_cons, List.length_append] at hl
    have e := p3 (by omega)
    rw [q3, e]
    have := congrArg List.length p1
    rw [e] at this
    simp only [List.length_append] at this
    omega

/-- after a record the buffer is not empty -/
theorem Buf.write_record (direct : Bool) (space : Bytes → Bool) (o : Buf) (h : o.buf.length ≤ 4096) (r : Bytes × Bytes) : (o.write direct (recordPieces space r)).buf ≠ [] := by
  rw [recordPieces, Buf.write, List.foldl_append, List.foldl_cons, List.foldl_nil]
  exact (Buf.str_spec direct _ _ _ (Nat.le_refl _) (Buf.write_spec direct _ o h).2.1).2.2.2 rfl

end Dupi.Csv
