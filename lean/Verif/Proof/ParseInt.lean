import Verif.Model.Strconv
import Verif.Spec.IntLit
/-! # strconv.ParseInt reads the integer literals -/

namespace Dupi
namespace ParseInt
open Spec

set_option maxRecDepth 100000 in
theorem digit_digitOf (c : UInt8) : digit c = digitOf c := by
  have h : ∀ i : Fin 256, digit (UInt8.ofFin i) = digitOf (UInt8.ofFin i) := by decide
  exact h c.toFin

set_option maxRecDepth 100000 in
theorem lower_letter (c : UInt8) : (lower c = 98 ↔ Letter 2 c) ∧ (lower c = 111 ↔ Letter 8 c) ∧ (lower c = 120 ↔ Letter 16 c) := by
  have h : ∀ i : Fin 256, (lower (UInt8.ofFin i) = 98 → UInt8.ofFin i = 98 ∨ UInt8.ofFin i = 66) ∧ (lower (UInt8.ofFin i) = 111 → UInt8.ofFin i = 111 ∨ UInt8.ofFin i = 79) ∧
      (lower (UInt8.ofFin i) = 120 → UInt8.ofFin i = 120 ∨ UInt8.ofFin i = 88) := by decide
  obtain ⟨h1, h2, h3⟩ := h c.toFin
  have e : UInt8.ofFin c.toFin = c := rfl
  rw [e] at h1 h2 h3
  refine ⟨⟨fun h => ?_, fun h => ?_⟩, ⟨fun h => ?_, fun h => ?_⟩, ⟨fun h => ?_, fun h => ?_⟩⟩
  · rcases h1 h with rfl | rfl <;> constructor
  · cases h <;> decide
  · rcases h2 h with rfl | rfl <;> constructor
  · cases h <;> decide
  · rcases h3 h with rfl | rfl <;> constructor
  · cases h <;> decide

theorem Letter.digit {b : Nat} {c : UInt8} (h : Letter b c) : ¬ IsDigit 8 c := by
  rintro ⟨d, h1, h2⟩
  cases h <;> simp [digitOf] at h1 <;> omega

theorem digitOf_under : digitOf 95 = none := by decide

theorem digit_ne {b : Nat} {c : UInt8} (h : IsDigit b c) : c ≠ 95 := by
  rintro rfl
  obtain ⟨d, h, _⟩ := h
  rw [digitOf_under] at h; simp at h

/-- underscores are single and between digits; `p`: a digit comes before -/
def Sep : Bool → Bytes → Prop
  | p, [] => p = true
  | p, c :: t => if c = 95 then p = true ∧ Sep false t else Sep true t

/-- digits and underscores -/
def All (b : Nat) (l : Bytes) : Prop := ∀ c ∈ l, c = 95 ∨ IsDigit b c

theorem all_cons {b : Nat} {c : UInt8} {l : Bytes} : All b (c :: l) ↔ (c = 95 ∨ IsDigit b c) ∧ All b l := by simp [All]

theorem sep_true {b : Nat} : ∀ l : Bytes, All b l → Sep true l → l = [] ∨ Digits b l ∨ ∃ l', l = 95 :: l' ∧ Digits b l'
  | [], _, _ => .inl rfl
  | [c], ha, hs => by
    right
    simp only [Sep] at hs
    rcases (all_cons.mp ha).1 with rfl | h
    · simp at hs
    · exact .inl (.one h)
  | c :: e :: l, ha, hs => by
    right
    obtain ⟨hc, ha'⟩ := all_cons.mp ha
    obtain ⟨he, ha''⟩ := all_cons.mp ha'
    by_cases h : c = 95
    · subst h
      right
      simp only [Sep, if_true, true_and] at hs
      by_cases h' : e = 95
      · subst h'; simp at hs
      · rw [if_neg h'] at hs
        have hd := he.resolve_left h'
        rcases sep_true l ha'' hs with rfl | hl | ⟨l', rfl, hl⟩
        · exact ⟨_, rfl, .one hd⟩
        · exact ⟨_, rfl, .more hd hl⟩
        · exact ⟨_, rfl, .sep hd hl⟩
    · left
      have hd := hc.resolve_left h
      rw [Sep, if_neg h] at hs
      rcases sep_true (e :: l) ha' hs with h0 | hl | ⟨l', h0, hl⟩
      · simp at h0
      · exact .more hd hl
      · simp only [List.cons.injEq] at h0
        obtain ⟨rfl, rfl⟩ := h0
        exact .sep hd hl
termination_by l => l.length

theorem digits_all {b : Nat} {l : Bytes} (h : Digits b l) : All b l ∧ Sep false l := by
  induction h with
  | one h => exact ⟨by simp [All, h], by simp [Sep, digit_ne h]⟩
  | @more c l h hl ih =>
    refine ⟨all_cons.mpr ⟨.inr h, ih.1⟩, ?_⟩
    rw [Sep, if_neg (digit_ne h)]
    have := ih.2
    cases hl <;> rename_i h' <;> rw [Sep, if_neg (digit_ne (by assumption))] at this ⊢ <;> exact this
  | @sep c l h hl ih =>
    refine ⟨all_cons.mpr ⟨.inr h, all_cons.mpr ⟨.inl rfl, ih.1⟩⟩, ?_⟩
    rw [Sep, if_neg (digit_ne h), Sep, if_pos rfl]
    exact ⟨rfl, ih.2⟩

theorem sep_false {b : Nat} {l : Bytes} (ha : All b l) (h : Sep false l) : Digits b l := by
  cases l with
  | nil => simp [Sep] at h
  | cons c l =>
    have hc : c ≠ 95 := by rintro rfl; simp [Sep] at h
    rw [Sep, if_neg hc] at h
    obtain ⟨h1, h2⟩ := all_cons.mp ha
    have hd := h1.resolve_left hc
    rcases sep_true l h2 h with rfl | hl | ⟨l', rfl, hl⟩
    · exact .one hd
    · exact .more hd hl
    · exact .sep hd hl

theorem sep_of_false {l : Bytes} (h : Sep false l) : Sep true l := by
  cases l with
  | nil => rfl
  | cons c l =>
    by_cases hc : c = 95
    · subst hc; simp [Sep] at h
    · rw [Sep, if_neg hc] at h ⊢; exact h

/-- what comes after a base prefix -/
theorem sep_true_iff {b : Nat} {l : Bytes} (hl : l ≠ []) : (All b l ∧ Sep true l) ↔ Digits b l ∨ ∃ l', l = 95 :: l' ∧ Digits b l' := by
  constructor
  · rintro ⟨h1, h2⟩
    exact (sep_true l h1 h2).resolve_left hl
  · rintro (h | ⟨l', rfl, h⟩)
    · exact ⟨(digits_all h).1, sep_of_false (digits_all h).2⟩
    · refine ⟨all_cons.mpr ⟨.inl rfl, (digits_all h).1⟩, ?_⟩
      rw [Sep, if_pos rfl]
      exact ⟨rfl, (digits_all h).2⟩

/-- the value reached from `n` -/
def from' (b n : Nat) (l : Bytes) : Nat := (l.filterMap digitOf).foldl (fun n d => n * b + d) n

theorem le_from {b : Nat} (hb : 0 < b) (l : Bytes) (n : Nat) : n ≤ from' b n l := by
  unfold from'
  induction l.filterMap digitOf generalizing n with
  | nil => exact Nat.le_refl _
  | cons d ds ih =>
    rw [List.foldl_cons]
    exact Nat.le_trans (Nat.le_trans (Nat.le_mul_of_pos_right n hb) (Nat.le_add_right _ d)) (ih _)

theorem loop_iff {b : Nat} (hb : 0 < b) : ∀ (l : Bytes) (n m : Nat) (u u' : Bool), n < 2 ^ 64 →
    (loop b n u l = some (m, u') ↔ All b l ∧ m = from' b n l ∧ m < 2 ^ 64 ∧ u' = (u || l.contains 95))
  | [], n, m, u, u', hn => by
    simp only [loop, Option.some.injEq, Prod.mk.injEq, from', List.filterMap_nil, List.foldl_nil]
    constructor
    · rintro ⟨rfl, rfl⟩; exact ⟨by simp [All], rfl, hn, by simp⟩
    · rintro ⟨_, rfl, _, rfl⟩; exact ⟨rfl, by simp⟩
  | c :: l, n, m, u, u', hn => by
    by_cases hc : c = 95
    · subst hc
      rw [loop, if_pos rfl, loop_iff hb l n m true u' hn, all_cons]
      have e : from' b n (95 :: l) = from' b n l := by unfold from'; rw [List.filterMap_cons_none digitOf_under]
      rw [e]
      simp
    · rw [loop, if_neg hc, digit_digitOf]
      have hne : ¬ (95 : UInt8) = c := fun h => hc h.symm
      cases hd : digitOf c with
      | none =>
        simp only [reduceCtorEq, false_iff, not_and]
        intro ha
        rcases (all_cons.mp ha).1 with h | ⟨d, h, _⟩
        · exact absurd h hc
        · rw [hd] at h; simp at h
      | some d =>
        have e : from' b n (c :: l) = from' b (n * b + d) l := by unfold from'; rw [List.filterMap_cons_some hd]; rfl
        simp only
        by_cases h1 : b ≤ d
        · rw [if_pos h1]
          simp only [reduceCtorEq, false_iff, not_and]
          intro ha
          rcases (all_cons.mp ha).1 with h | ⟨d', h, h'⟩
          · exact absurd h hc
          · rw [hd] at h; simp at h; omega
        · rw [if_neg h1]
          have hdig : IsDigit b c := ⟨d, hd, by omega⟩
          by_cases h3 : 2 ^ 64 - 1 < n * b + d
          · have hno : ¬ (All b (c :: l) ∧ m = from' b n (c :: l) ∧ m < 2 ^ 64 ∧ u' = (u || (c :: l).contains 95)) := by
              rintro ⟨_, rfl, h, _⟩
              rw [e] at h
              have := le_from hb l (n * b + d)
              omega
            by_cases h2 : (2 ^ 64 - 1) / b + 1 ≤ n
            · rw [if_pos h2]; exact ⟨fun h => by simp at h, fun h => absurd h hno⟩
            · rw [if_neg h2, if_pos h3]; exact ⟨fun h => by simp at h, fun h => absurd h hno⟩
          · have h2 : ¬ (2 ^ 64 - 1) / b + 1 ≤ n := by
              intro h
              have h4 : (2 ^ 64 - 1) / b < n := h
              rw [Nat.div_lt_iff_lt_mul hb] at h4
              omega
            rw [if_neg h2, if_neg h3, loop_iff hb l _ m u u' (by omega), all_cons, e]
            simp [hdig, hne]

/-- digits 0-9, or of the base 16 with `hex`, all accepted by `okLoop` -/
theorem okLoop_iff (hex : Bool) (b : Nat) (hb : ∀ c, IsDigit b c → (48 ≤ c ∧ c ≤ 57) ∨ (hex ∧ 97 ≤ lower c ∧ lower c ≤ 102)) :
    ∀ (l : Bytes) (saw : Saw), All b l → saw ≠ .other → (l = [] → saw ≠ .start) → (okLoop hex saw l = true ↔ Sep (saw = .digit) l)
  | [], saw, _, h, h' => by
    have h' := h' rfl
    cases saw <;> simp_all [okLoop, Sep]
  | c :: l, saw, ha, h, _ => by
    obtain ⟨hc, ha'⟩ := all_cons.mp ha
    by_cases h5 : c = 95
    · subst h5
      rw [okLoop, if_neg (by cases hex <;> decide), if_pos rfl, Sep, if_pos rfl]
      by_cases hs : saw = .digit
      · rw [if_pos hs, okLoop_iff hex b hb l .under ha' (by simp) (by simp)]
        simp [hs]
      · rw [if_neg hs]; simp [hs]
    · rw [okLoop, if_pos (hb c (hc.resolve_left h5)), Sep, if_neg h5, okLoop_iff hex b hb l .digit ha' (by simp) (by simp)]
      simp

set_option maxRecDepth 100000 in
theorem dig_small {b : Nat} (hb : b ≤ 10) (hex : Bool) (c : UInt8) (h : IsDigit b c) : (48 ≤ c ∧ c ≤ 57) ∨ (hex ∧ 97 ≤ lower c ∧ lower c ≤ 102) := by
  obtain ⟨d, h1, h2⟩ := h
  left
  have h : ∀ i : Fin 256, ∀ d, digitOf (UInt8.ofFin i) = some d → d < 10 → 48 ≤ UInt8.ofFin i ∧ UInt8.ofFin i ≤ 57 := by
    intro i d hd hlt
    have : ∀ i : Fin 256, (∀ d ∈ digitOf (UInt8.ofFin i), d < 10 → 48 ≤ UInt8.ofFin i ∧ UInt8.ofFin i ≤ 57) := by decide
    exact this i d hd hlt
  exact h c.toFin d h1 (by omega)

set_option maxRecDepth 100000 in
theorem dig_hex (c : UInt8) (h : IsDigit 16 c) : (48 ≤ c ∧ c ≤ 57) ∨ ((true = true) ∧ 97 ≤ lower c ∧ lower c ≤ 102) := by
  obtain ⟨d, h1, h2⟩ := h
  have : ∀ i : Fin 256, (∀ d ∈ digitOf (UInt8.ofFin i), d < 16 → (48 ≤ UInt8.ofFin i ∧ UInt8.ofFin i ≤ 57) ∨
      ((true = true) ∧ 97 ≤ lower (UInt8.ofFin i) ∧ lower (UInt8.ofFin i) ≤ 102)) := by decide
  exact this c.toFin d h1 h2

theorem sep_plain {p : Bool} {l : Bytes} (h : 95 ∉ l) (hp : l = [] → p = true) : Sep p l := by
  induction l generalizing p with
  | nil => exact hp rfl
  | cons c l ih =>
    simp only [List.mem_cons, not_or] at h
    rw [Sep, if_neg (fun e => h.1 e.symm)]
    exact ih h.2 fun _ => rfl

theorem mem_of_contains {l : Bytes} : l.contains 95 = false ↔ 95 ∉ l := by
  rw [← Bool.not_eq_true, List.contains_iff_mem]

/-- the digits are put apart as they should, `p` if a 0 or a prefix comes before them -/
theorem parseUint_of {s : Bytes} {n : Nat} (p : Bool) (hs : s ≠ []) (hb : 0 < (base s).1) (hp : (base s).2 = [] → p = true)
    (hu : All (base s).1 (base s).2 → 95 ∈ (base s).2 → (underscoreOK s = true ↔ Sep p (base s).2)) :
    parseUint s = some n ↔ n < 2 ^ 64 ∧ n = number (base s).1 (base s).2 ∧ All (base s).1 (base s).2 ∧ Sep p (base s).2 := by
  unfold parseUint
  rw [if_neg hs]
  have hl := fun m u => loop_iff hb (base s).2 0 m false u (by decide)
  cases h : loop (base s).1 0 false (base s).2 with
  | none =>
    simp only [reduceCtorEq, false_iff, not_and]
    intro h1 h2 h3
    have := (hl n ((base s).2.contains 95)).mpr ⟨h3, h2, h1, by simp⟩
    rw [h] at this; simp at this
  | some r =>
    obtain ⟨m, u⟩ := r
    obtain ⟨h1, h2, h3, h4⟩ := (hl m u).mp h
    rw [Bool.false_or] at h4
    simp only
    by_cases h5 : 95 ∈ (base s).2
    · have hu := hu h1 h5
      have : u = true := by rw [h4, List.contains_iff_mem]; exact h5
      subst this
      by_cases ho : underscoreOK s = true
      · simp only [ho, Bool.not_true, Bool.false_eq_true, and_false, if_false, Option.some.injEq]
        constructor
        · rintro rfl; exact ⟨h3, h2, h1, hu.mp ho⟩
        · rintro ⟨_, h, _⟩; rw [h]; exact h2
      · simp only [ho, Bool.not_false, and_self, if_true, reduceCtorEq, false_iff]
        rintro ⟨_, _, _, h⟩
        exact ho (hu.mpr h)
    · have : u = false := by rw [h4, mem_of_contains]; exact h5
      subst this
      simp only [Bool.false_eq_true, false_and, if_false, Option.some.injEq]
      constructor
      · rintro rfl; exact ⟨h3, h2, h1, sep_plain h5 hp⟩
      · rintro ⟨_, h, _⟩; rw [h]; exact h2

theorem base_other {c : UInt8} {t : Bytes} (h : c ≠ 48) : base (c :: t) = (10, c :: t) := by
  unfold base
  split
  · rename_i heq; injection heq with h1; exact absurd h1 h
  · rename_i heq; injection heq with h1; exact absurd h1 h
  · rfl

theorem okNumber_other {c : UInt8} {t : Bytes} (h : c ≠ 48) : okNumber (c :: t) = okLoop false .start (c :: t) := by
  unfold okNumber
  split
  · rename_i heq; injection heq with h1; exact absurd h1 h
  · rfl

theorem digits_ne {b : Nat} {l : Bytes} (h : Digits b l) : l ≠ [] := by cases h <;> simp

/-- the value of a literal of base 8 -/
theorem number_under (b : Nat) (l : Bytes) : number b (95 :: l) = number b l := by
  unfold number
  rw [List.filterMap_cons_none digitOf_under]

theorem letter_fn {b b' : Nat} {c : UInt8} (h : Letter b c) (h' : Letter b' c) : b = b' := by cases h <;> cases h' <;> rfl

theorem letter_ne {b : Nat} {c : UInt8} (h : Letter b c) : c ≠ 95 := by cases h <;> decide

theorem intLit_octal {t : Bytes} {n : Nat} (h : ∀ b c r, t = c :: r → Letter b c → r = []) :
    IntLit (48 :: t) n ↔ (t = [] ∧ n = 0) ∨ (n = number 8 t ∧ (Digits 8 t ∨ ∃ l', t = 95 :: l' ∧ Digits 8 l')) := by
  constructor
  · intro h'
    cases h' with
    | zero => exact .inl ⟨rfl, rfl⟩
    | decimal h1 h2 => simp at h2
    | octal h1 => exact .inr ⟨rfl, .inl h1⟩
    | octal_ h1 => exact .inr ⟨(number_under _ _).symm, .inr ⟨_, rfl, h1⟩⟩
    | based h1 h2 => exact absurd (h _ _ _ rfl h1) (digits_ne h2)
    | based_ h1 h2 => exact absurd (h _ _ _ rfl h1) (by simp)
  · rintro (⟨rfl, rfl⟩ | ⟨rfl, h' | ⟨l', rfl, h'⟩⟩)
    · exact .zero
    · exact .octal h'
    · rw [number_under]; exact .octal_ h'

theorem intLit_based {b : Nat} {c : UInt8} {t : Bytes} {n : Nat} (hc : Letter b c) :
    IntLit (48 :: c :: t) n ↔ n = number b t ∧ (Digits b t ∨ ∃ l', t = 95 :: l' ∧ Digits b l') := by
  constructor
  · intro h'
    cases h' with
    | decimal h1 h2 => simp at h2
    | octal h1 =>
      rcases (all_cons.mp (digits_all h1).1).1 with h | h
      · exact absurd h (letter_ne hc)
      · exact absurd h (Letter.digit hc)
    | octal_ h1 => exact absurd rfl (letter_ne hc)
    | based h1 h2 => obtain rfl := letter_fn hc h1; exact ⟨rfl, .inl h2⟩
    | based_ h1 h2 => obtain rfl := letter_fn hc h1; exact ⟨(number_under _ _).symm, .inr ⟨_, rfl, h2⟩⟩
  · rintro ⟨rfl, h | ⟨l', rfl, h⟩⟩
    · exact .based hc h
    · rw [number_under]; exact .based_ hc h

theorem base_based {b : Nat} {c : UInt8} (hc : Letter b c) (d : UInt8) (t : Bytes) : base (48 :: c :: d :: t) = (b, d :: t) := by
  cases hc <;> rfl

theorem base_octal {t : Bytes} (h : ∀ b c r, t = c :: r → Letter b c → r = []) : base (48 :: t) = (8, t) := by
  match t, h with
  | [], _ => rfl
  | [c], _ => rfl
  | c :: d :: t, h =>
    have h1 := fun b hb => h b c (d :: t) rfl hb
    obtain ⟨l1, l2, l3⟩ := lower_letter c
    simp only [base]
    rw [if_neg fun e => by simpa using h1 _ (l1.mp e), if_neg fun e => by simpa using h1 _ (l2.mp e), if_neg fun e => by simpa using h1 _ (l3.mp e)]

theorem ok_octal {t : Bytes} (ha : All 8 t) : underscoreOK (48 :: t) = okLoop false .digit t := by
  have e : underscoreOK (48 :: t) = okNumber (48 :: t) := by simp [underscoreOK]
  rw [e]
  cases t with
  | nil => rfl
  | cons c t =>
    have hc : ¬ (lower c = 98 ∨ lower c = 111 ∨ lower c = 120) := by
      intro h
      obtain ⟨l1, l2, l3⟩ := lower_letter c
      have hl : ∃ b, Letter b c := by
        rcases h with h | h | h
        · exact ⟨_, l1.mp h⟩
        · exact ⟨_, l2.mp h⟩
        · exact ⟨_, l3.mp h⟩
      obtain ⟨b, hl⟩ := hl
      rcases (all_cons.mp ha).1 with h | h
      · exact absurd h (letter_ne hl)
      · exact absurd h (Letter.digit hl)
    simp only [okNumber]
    rw [if_neg hc, okLoop, if_pos (by decide)]

theorem ok_based {b : Nat} {c : UInt8} (hc : Letter b c) (t : Bytes) : underscoreOK (48 :: c :: t) = okLoop (decide (b = 16)) .digit t := by
  cases hc <;> rfl

/-- `ParseUint` reads the literals below 2^64. -/
theorem parseUint_iff (s : Bytes) (n : Nat) : parseUint s = some n ↔ n < 2 ^ 64 ∧ IntLit s n := by
  cases s with
  | nil =>
    constructor
    · intro h; simp [parseUint] at h
    · rintro ⟨_, h⟩
      cases h with
      | decimal h => exact absurd rfl (digits_ne h)
  | cons c t =>
    by_cases hc : c = 48
    · subst hc
      by_cases ht : ∀ b c r, t = c :: r → Letter b c → r = []
      · rw [parseUint_of true (by simp) (by rw [base_octal ht]; exact Nat.zero_lt_succ _) (fun _ => rfl), base_octal ht, intLit_octal ht]
        · refine and_congr_right fun _ => ?_
          simp only
          cases t with
          | nil => simp [number, All, Sep]; exact fun h _ => h
          | cons c t => rw [sep_true_iff (by simp)]; simp
        · rw [base_octal ht]
          intro ha _
          simp only at ha ⊢
          rw [ok_octal ha, okLoop_iff false 8 (fun c h => dig_small (by decide) false c h) t .digit ha (by simp) (by simp)]
          simp
      · simp only [Classical.not_forall] at ht
        obtain ⟨b, c, r, rfl, hl, hr⟩ := ht
        obtain ⟨d, t, rfl⟩ := List.exists_cons_of_ne_nil hr
        have hb : 0 < b := by cases hl <;> decide
        rw [parseUint_of true (by simp) (by rw [base_based hl]; exact hb) (fun _ => rfl), base_based hl, intLit_based hl]
        · refine and_congr_right fun _ => ?_
          simp only
          rw [sep_true_iff (by simp)]
        · rw [base_based hl]
          intro ha _
          simp only at ha ⊢
          rw [ok_based hl]
          have : okLoop (decide (b = 16)) .digit (d :: t) = true ↔ Sep (Saw.digit = .digit) (d :: t) := by
            cases hl
            · exact okLoop_iff _ 2 (fun c h => dig_small (by decide) _ c h) _ .digit ha (by simp) (by simp)
            · exact okLoop_iff _ 2 (fun c h => dig_small (by decide) _ c h) _ .digit ha (by simp) (by simp)
            · exact okLoop_iff _ 8 (fun c h => dig_small (by decide) _ c h) _ .digit ha (by simp) (by simp)
            · exact okLoop_iff _ 8 (fun c h => dig_small (by decide) _ c h) _ .digit ha (by simp) (by simp)
            · exact okLoop_iff _ 16 (fun c h => dig_hex c h) _ .digit ha (by simp) (by simp)
            · exact okLoop_iff _ 16 (fun c h => dig_hex c h) _ .digit ha (by simp) (by simp)
          rw [this]
          simp
    · rw [parseUint_of false (by simp) (by rw [base_other hc]; exact Nat.zero_lt_succ _) (by rw [base_other hc]; simp), base_other hc]
      · refine and_congr_right fun _ => ?_
        simp only
        constructor
        · rintro ⟨rfl, h1, h2⟩
          exact .decimal (sep_false h1 h2) (by simpa using hc)
        · intro h
          cases h with
          | zero => exact absurd rfl hc
          | decimal h1 h2 => exact ⟨rfl, digits_all h1⟩
          | octal h1 => exact absurd rfl hc
          | octal_ h1 => exact absurd rfl hc
          | based h1 h2 => exact absurd rfl hc
          | based_ h1 h2 => exact absurd rfl hc
      · rw [base_other hc]
        intro ha _
        simp only at ha ⊢
        have hs : ¬ (c = 45 ∨ c = 43) := by
          intro h
          rcases (all_cons.mp ha).1 with h' | ⟨d, h', _⟩
          · subst h'; rcases h with h | h <;> revert h <;> decide
          · rcases h with rfl | rfl <;> simp [digitOf] at h'
        rw [underscoreOK, if_neg hs, okNumber_other hc, okLoop_iff false 10 (fun c h => dig_small (by decide) false c h) _ .start ha (by simp) (by simp)]
        simp

theorem digit_not_sign {b : Nat} {c : UInt8} (h : IsDigit b c) : c ≠ 43 ∧ c ≠ 45 := by
  obtain ⟨d, h, _⟩ := h
  constructor <;> rintro rfl <;> simp [digitOf] at h

theorem intLit_head {l : Bytes} {n : Nat} (h : IntLit l n) : ∃ c t, l = c :: t ∧ c ≠ 43 ∧ c ≠ 45 := by
  cases h with
  | decimal h _ =>
    obtain ⟨c, t, rfl⟩ := List.exists_cons_of_ne_nil (digits_ne h)
    cases h with
    | one h => exact ⟨_, _, rfl, digit_not_sign h⟩
    | more h _ => exact ⟨_, _, rfl, digit_not_sign h⟩
    | sep h _ => exact ⟨_, _, rfl, digit_not_sign h⟩
  | _ => exact ⟨_, _, rfl, by decide, by decide⟩

/-- **`ParseInt` reads the literals, with or without a sign, that are an int64.** -/
theorem parse_iff (s : Bytes) (i : Int) : parse s = some i ↔ SignedLit s i ∧ -2 ^ 63 ≤ i ∧ i < 2 ^ 63 := by
  cases s with
  | nil =>
    constructor
    · intro h; simp [parse] at h
    · rintro ⟨h, _⟩
      cases h with
      | plain h => obtain ⟨_, _, h, _⟩ := intLit_head h; simp at h
  | cons c s =>
    simp only [parse]
    by_cases h1 : c = 45
    · subst h1
      rw [if_pos (by simp)]
      have hs : SignedLit (45 :: s) i ↔ ∃ n : Nat, IntLit s n ∧ i = -n := by
        constructor
        · intro h
          cases h with
          | plain h => obtain ⟨_, _, h, h', h''⟩ := intLit_head h; injection h with h; exact absurd h.symm h''
          | minus h => exact ⟨_, h, rfl⟩
        · rintro ⟨n, h, rfl⟩; exact .minus h
      rw [hs]
      have hu := parseUint_iff s
      cases hp : parseUint s with
      | none =>
        simp only [reduceCtorEq, false_iff, not_and]
        rintro ⟨n, h, rfl⟩ h2
        have := (hu n).mpr ⟨by omega, h⟩
        rw [hp] at this; simp at this
      | some n =>
        obtain ⟨g1, g2⟩ := (hu n).mp hp
        have huniq : ∀ m, IntLit s m → m < 2 ^ 64 → m = n := by
          intro m hm hlt
          have := (hu m).mpr ⟨hlt, hm⟩
          rw [hp] at this; simpa using this.symm
        simp only [decide_true, Bool.not_true, Bool.false_eq_true, false_and, if_false, true_and, if_true]
        by_cases h3 : 2 ^ 63 < n
        · rw [if_pos h3]
          simp only [reduceCtorEq, false_iff, not_and]
          rintro ⟨m, h, rfl⟩ h2
          have := huniq m h (by omega)
          omega
        · rw [if_neg h3, Option.some.injEq]
          constructor
          · rintro rfl; exact ⟨⟨n, g2, rfl⟩, by omega, by omega⟩
          · rintro ⟨⟨m, h, rfl⟩, h2, _⟩
            rw [huniq m h (by omega)]
    · have hs : SignedLit (c :: s) i ↔ ∃ n : Nat, IntLit (if c = 43 ∨ c = 45 then s else c :: s) n ∧ i = n := by
        constructor
        · intro h
          cases h with
          | plain h =>
            obtain ⟨_, _, e, h', h''⟩ := intLit_head h
            injection e with e1 e2
            subst e1
            exact ⟨_, by rw [if_neg (by simp [h', h''])]; exact h, rfl⟩
          | plus h => exact ⟨_, by simpa using h, rfl⟩
          | minus h => exact absurd rfl h1
        · rintro ⟨n, h, rfl⟩
          by_cases h2 : c = 43
          · subst h2; rw [if_pos (by simp)] at h; exact .plus h
          · rw [if_neg (by simp [h1, h2])] at h; exact .plain h
      rw [hs]
      have hu := parseUint_iff (if c = 43 ∨ c = 45 then s else c :: s)
      generalize (if c = 43 ∨ c = 45 then s else c :: s) = s' at hu ⊢
      cases hp : parseUint s' with
      | none =>
        simp only [reduceCtorEq, false_iff, not_and]
        rintro ⟨n, h, rfl⟩ h2 h3
        have := (hu n).mpr ⟨by omega, h⟩
        rw [hp] at this; simp at this
      | some n =>
        obtain ⟨g1, g2⟩ := (hu n).mp hp
        have huniq : ∀ m, IntLit s' m → m < 2 ^ 64 → m = n := by
          intro m hm hlt
          have := (hu m).mpr ⟨hlt, hm⟩
          rw [hp] at this; simpa using this.symm
        simp only [h1, decide_false, Bool.not_false, true_and, false_and, if_false]
        by_cases h3 : 2 ^ 63 ≤ n
        · rw [if_pos h3]
          simp only [reduceCtorEq, false_iff, not_and]
          rintro ⟨m, h, rfl⟩ h2 h4
          have := huniq m h (by omega)
          omega
        · rw [if_neg h3, Option.some.injEq]
          constructor
          · rintro rfl; exact ⟨⟨n, g2, rfl⟩, by omega, by omega⟩
          · rintro ⟨⟨m, h, rfl⟩, h2, _⟩
            rw [huniq m h (by omega)]

end ParseInt
end Dupi
