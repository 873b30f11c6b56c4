import Verif.Proof.ParseInt
import Verif.Spec.Numeral
import Verif.Props.Usage
/-! # The numbers given to options: C80 -/

namespace Dupi.Props
open Spec Cmd Disk

/-- **C80, exactly.**  The numbers the options -n, -s and -t take are the integer literals of Go, with or without a sign, that are an int64. -/
theorem C80_exact (pf : Bytes → Option ℝ) (s : Bytes) (i : Int) : (Strconv.go pf).parseInt s = some i ↔ SignedLit s i ∧ -2 ^ 63 ≤ i ∧ i < 2 ^ 63 :=
  ParseInt.parse_iff s i

theorem digitVal_digitOf {b : UInt8} {v : Nat} (h : digitVal b = some v) : digitOf b = some v := by
  unfold digitVal at h
  unfold digitOf
  by_cases h1 : 48 ≤ b.toNat ∧ b.toNat ≤ 57
  · rw [if_pos h1] at h ⊢; exact h
  · rw [if_neg h1] at h ⊢
    by_cases h2 : 97 ≤ b.toNat ∧ b.toNat ≤ 102
    · rw [if_pos h2, Option.some.injEq] at h
      rw [if_pos ⟨h2.1, by omega⟩, Option.some.injEq]
      omega
    · rw [if_neg h2] at h; simp at h

theorem digits_of_all {b : Nat} {t : Bytes} (hne : t ≠ []) (h : ∀ c ∈ t, IsDigit b c) : Digits b t := by
  induction t with
  | nil => exact absurd rfl hne
  | cons c t ih =>
    cases t with
    | nil => exact .one (h c (by simp))
    | cons e t => exact .more (h c (by simp)) (ih (by simp) fun x hx => h x (by simp [hx]))

theorem number_eq {b : Nat} {t : Bytes} (h : ∀ c ∈ t, ∃ v, v < b ∧ digitVal c = some v) :
    number b t = t.foldl (fun a c => b * a + (digitVal c).getD 0) 0 := by
  have key : ∀ a, (t.filterMap digitOf).foldl (fun n d => n * b + d) a = t.foldl (fun a c => b * a + (digitVal c).getD 0) a := by
   induction t with
   | nil => exact fun _ => rfl
   | cons c t ih =>
    intro a
    obtain ⟨v, _, hv⟩ := h c (by simp)
    rw [List.filterMap_cons_some (digitVal_digitOf hv), List.foldl_cons, List.foldl_cons, ih fun x hx => h x (by simp [hx]), hv, Option.getD_some, Nat.mul_comm]
  exact key 0

theorem numeral_lit {n : Nat} {t : Bytes} (h : Numeral 10 n t) : IntLit t n := by
  obtain ⟨h1, h2, h3, h4⟩ := h
  by_cases h0 : t.head? = some 48
  · have e := h4 h0
    subst e
    have : n = 0 := by rw [← h3]; rfl
    subst this
    exact .zero
  · rw [← h3, ← number_eq h2]
    exact .decimal (digits_of_all h1 fun c hc => by obtain ⟨v, h5, h6⟩ := h2 c hc; exact ⟨v, digitVal_digitOf h6, h5⟩) h0

/-- **C80**, decimal: a number written with decimal digits and no more of them than needed, with or without a sign, is taken for what it is. -/
theorem C80_decimal (pf : Bytes → Option ℝ) {n : Nat} {t : Bytes} (h : Numeral 10 n t) :
    (n < 2 ^ 63 → (Strconv.go pf).parseInt t = some n ∧ (Strconv.go pf).parseInt (43 :: t) = some n) ∧
      (n ≤ 2 ^ 63 → (Strconv.go pf).parseInt (45 :: t) = some (-(n : Int))) := by
  have hl := numeral_lit h
  refine ⟨fun hn => ⟨?_, ?_⟩, fun hn => ?_⟩
  · exact (C80_exact pf _ _).mpr ⟨.plain hl, by omega, by omega⟩
  · exact (C80_exact pf _ _).mpr ⟨.plus hl, by omega, by omega⟩
  · exact (C80_exact pf _ _).mpr ⟨.minus hl, by omega, by omega⟩

/-- and one that has no place in 64 bits is refused. -/
theorem C80_range (pf : Bytes → Option ℝ) {n : Nat} {t : Bytes} (h : Numeral 10 n t) :
    (2 ^ 63 ≤ n → (Strconv.go pf).parseInt t = none) ∧ (2 ^ 63 < n → (Strconv.go pf).parseInt (45 :: t) = none) := by
  have hl := numeral_lit h
  have uniq : ∀ m, IntLit t m → m = n ∨ 2 ^ 64 ≤ m := by
    intro m hm
    by_cases h' : 2 ^ 64 ≤ m
    · exact .inr h'
    · left
      -- the value of a numeral is a matter of its digits
      have hne := h.1
      cases hm with
      | zero => exact h.2.2.1 ▸ rfl
      | decimal h1 h2 => rw [number_eq h.2.1]; exact h.2.2.1
      | octal h1 => have := h.2.2.2 rfl; simp at this; subst this; exact absurd rfl (ParseInt.digits_ne h1)
      | octal_ h1 => have := h.2.2.2 rfl; simp at this
      | based h1 h2 => have := h.2.2.2 rfl; simp at this
      | based_ h1 h2 => have := h.2.2.2 rfl; simp at this
  obtain ⟨c, r, rfl, hc1, hc2⟩ := ParseInt.intLit_head hl
  refine ⟨fun hn => ?_, fun hn => ?_⟩
  · cases hp : (Strconv.go pf).parseInt (c :: r) with
    | none => rfl
    | some i =>
      obtain ⟨h1, h2, h3⟩ := (C80_exact pf _ _).mp hp
      cases h1 with
      | plain h1 => rcases uniq _ h1 with h | h <;> omega
      | plus _ => exact absurd rfl hc1
      | minus _ => exact absurd rfl hc2
  · cases hp : (Strconv.go pf).parseInt (45 :: c :: r) with
    | none => rfl
    | some i =>
      obtain ⟨h1, h2, h3⟩ := (C80_exact pf _ _).mp hp
      cases h1 with
      | plain h1 => obtain ⟨_, _, e, _, h⟩ := ParseInt.intLit_head h1; injection e with e; exact absurd e.symm h
      | minus h1 => rcases uniq _ h1 with h | h <;> omega

/-- **C80**, octal: numbers with a leading 0 are taken for octal, -/
theorem C80_octal (pf : Bytes → Option ℝ) {t : Bytes} (ht : t ≠ []) (h : ∀ c ∈ t, 48 ≤ c.toNat ∧ c.toNat ≤ 55) (hn : number 8 t < 2 ^ 63) :
    (Strconv.go pf).parseInt (48 :: t) = some (number 8 t) := by
  refine (C80_exact pf _ _).mpr ⟨.plain (.octal (digits_of_all ht fun c hc => ?_)), by omega, by omega⟩
  obtain ⟨h1, h2⟩ := h c hc
  exact ⟨c.toNat - 48, by unfold digitOf; rw [if_pos ⟨h1, by omega⟩], by omega⟩

/-- or refused if one of their digits is an 8 or a 9. -/
theorem C80_octal_refused (pf : Bytes → Option ℝ) {t : Bytes} (h : ∀ c ∈ t, 48 ≤ c.toNat ∧ c.toNat ≤ 57) (h8 : ∃ c ∈ t, 56 ≤ c.toNat) :
    (Strconv.go pf).parseInt (48 :: t) = none := by
  obtain ⟨c, hc, hc8⟩ := h8
  cases hp : (Strconv.go pf).parseInt (48 :: t) with
  | none => rfl
  | some i =>
    exfalso
    have no : ∀ {l : Bytes}, (∀ x ∈ t, x ∈ l) → ¬ Digits 8 l := by
      intro l hl hd
      rcases (ParseInt.digits_all hd).1 c (hl c hc) with h' | ⟨d, h1, h2⟩
      · have := (h c hc).2; subst h'; simp at this
      · unfold digitOf at h1
        rw [if_pos (h c hc)] at h1
        simp at h1; omega
    obtain ⟨h1, _, _⟩ := (C80_exact pf _ _).mp hp
    have letter : ∀ {b : Nat} {x : UInt8}, Letter b x → x ∈ t → False := by
      intro b x hx hm
      have := h x hm
      cases hx <;> simp at this
    cases h1 with
    | plain h1 =>
      cases h1 with
      | zero => simp at hc
      | decimal _ h2 => simp at h2
      | octal h1 => exact no (fun _ hx => hx) h1
      | octal_ h1 =>
        have := (h 95 (by simp)).2; simp at this
      | based h1 _ => exact letter h1 (by simp)
      | based_ h1 _ => exact letter h1 (by simp)

section
variable (L : Lib) (readCfg : Bytes → M Config) (d : Disk) (fs : Files) (p : Proc)

/-- **C80**, anything else: `dupi index` with a value for -n, -s or -t that is no integer literal, or too great, after any proper options and whatever follows,
does nothing and ends with status 2. -/
theorem C80_refused (pf : Bytes → Option ℝ) (hS : L.S = Strconv.go pf) {gopts opts : List Opt} (hg : ∀ o ∈ gopts, rootUsage.Proper o)
    (hpre : Verbless (gopts.flatMap Opt.args)) (ho : ∀ o ∈ opts, (verbUsage L.S .index).Proper o) {o : Opt} (hn : o.name = [110] ∨ o.name = [115] ∨ o.name = [116])
    (hs : o.style ≠ .bare) (hv : ∀ i : Int, SignedLit o.value i → i < -2 ^ 63 ∨ 2 ^ 63 ≤ i) (rest : List Bytes) (d' : Disk) (out : Bytes) (s : Nat) :
    Runs L readCfg d fs p (gopts.flatMap Opt.args ++ Verb.index.name :: (opts.flatMap Opt.args ++ (o.args ++ rest))) d' out s ↔ d' = d ∧ out = [] ∧ s = 2 := by
  have hm : (verbUsage L.S .index).Misused (o.args ++ rest) false := by
    refine .value ?_ hs ?_
    · rcases hn with h | h | h <;> rw [h] <;> simp [verbUsage]
    · rintro (h | h)
      · rcases hn with h' | h' | h' <;> rw [h'] at h <;> simp at h
      · rw [hS] at h
        obtain ⟨i, hi⟩ := Option.isSome_iff_exists.mp h
        obtain ⟨h1, h2, h3⟩ := (C80_exact pf _ _).mp hi
        rcases hv i h1 with h | h <;> omega
  have := C73_misused L readCfg d fs p hg (gl := []) (.plain (by simp)) (by simpa using hpre) .index ho hm d' out s
  simpa using this

end

/-- the number an option -n, -s or -t stands for, if it is written as a literal that has a place -/
theorem C80_value (pf : Bytes → Option ℝ) {opts : List Opt} {n : Bytes} {t : Bytes} (hv : valueOf opts n = some t) {i : Int} (h : SignedLit t i) (h1 : -2 ^ 63 ≤ i)
    (h2 : i < 2 ^ 63) (default : Int) : intOf (Strconv.go pf) opts n default = i := by
  unfold intOf
  rw [hv, Option.bind_some, (C80_exact pf t i).mpr ⟨h, h1, h2⟩]
  rfl

/-- **C80**, new indexes: they have the number of shards that the last -n says and the number of shatterers that the last -s says, both as literals. -/
theorem C80_index (pf : Bytes → Option ℝ) {opts : List Opt} (h : ∀ o ∈ opts, IndexOpt (Strconv.go pf) o) {l paths : List Bytes} (hl : Rest l paths)
    (cwd root : Bytes) (readCfg : Bytes → M Config) (ha : Flag.lastBool (opts.map fun o => (o.name, o.value)) [97] = false) (hc : (valueOf opts [99]).getD [] = [])
    (ht : valueOf opts [116] = none) {shards shatters : Int} {tn ts : Bytes} (hn : valueOf opts [110] = some tn) (hs : valueOf opts [115] = some ts)
    (hn' : SignedLit tn shards) (hs' : SignedLit ts shatters) (bn : -2 ^ 63 ≤ shards ∧ shards < 2 ^ 63) (bs : -2 ^ 63 ≤ shatters ∧ shatters < 2 ^ 63) :
    ∃ st, Flag.parse (verbFlags (Strconv.go pf) .index) (opts.flatMap Opt.args ++ l) = some (st, paths) ∧
      getIndexer (Strconv.go pf) cwd readCfg root st = .ok (.create (plainConfig (absPath cwd root) shards shatters)) := by
  have := C58_index_partial (Strconv.go pf) h hl cwd root readCfg ha hc (by unfold intOf; rw [ht]; rfl)
  rwa [C80_value pf hn hn' bn.1 bn.2, C80_value pf hs hs' bs.1 bs.2] at this

theorem exOctal : SignedLit [48, 49, 48] 8 :=
  .plain (.octal (l := [49, 48]) (.more ⟨1, by decide, by decide⟩ (.one ⟨0, by decide, by decide⟩)))

/-- `dupi index -n 010 -s 2 f` makes an index of 8 shards. -/
theorem C80_octal_ex (pf : Bytes → Option ℝ) (cwd root : Bytes) (readCfg : Bytes → M Config) :
    ∃ st, Flag.parse (verbFlags (Strconv.go pf) .index) [[45, 110], [48, 49, 48], [45, 115], [50], [102]] = some (st, [[102]]) ∧
      getIndexer (Strconv.go pf) cwd readCfg root st = .ok (.create (plainConfig (absPath cwd root) 8 2)) := by
  have two : SignedLit [50] 2 := .plain (.decimal (l := [50]) (.one ⟨2, by decide, by decide⟩) (by decide))
  have int (t : Bytes) (i : Int) (h : SignedLit t i) (h1 : -2 ^ 63 ≤ i) (h2 : i < 2 ^ 63) : ((Strconv.go pf).parseInt t).isSome := by
    rw [(C80_exact pf t i).mpr ⟨h, h1, h2⟩]; rfl
  refine C80_index pf (opts := [⟨[110], [48, 49, 48], .apart, false⟩, ⟨[115], [50], .apart, false⟩]) ?_ (l := [[102]]) (.plain (by simp)) cwd root readCfg
    (by decide) (by decide) (by decide) (by decide) (by decide) exOctal two (by decide) (by decide)
  intro o ho
  simp only [List.mem_cons, List.not_mem_nil, or_false] at ho
  rcases ho with rfl | rfl
  · exact .inl ⟨by simp, by simp, int _ _ exOctal (by decide) (by decide)⟩
  · exact .inl ⟨by simp, by simp, int _ _ two (by decide) (by decide)⟩

/-- 12, 0x1F, -0b1_0, 0_7 and what is not a number -/
example (pf : Bytes → Option ℝ) : Numeral 10 12 [49, 50] ∧ (Strconv.go pf).parseInt [48, 120, 49, 70] = some 31 ∧
    (Strconv.go pf).parseInt [45, 48, 98, 49, 95, 48] = some (-2) ∧ (Strconv.go pf).parseInt [48, 95, 55] = some 7 ∧ (Strconv.go pf).parseInt [48, 56] = none ∧
    (Strconv.go pf).parseInt [49, 95] = none ∧ (Strconv.go pf).parseInt [48, 98] = none ∧ (Strconv.go pf).parseInt [45, 45, 49] = none := by
  refine ⟨⟨by simp, ?_, by decide, by simp⟩, ?_⟩
  rotate_left
  · have e : (Strconv.go pf).parseInt = ParseInt.parse := rfl
    rw [e]
    decide
  intro b hb
  simp only [List.mem_cons, List.not_mem_nil, or_false] at hb
  rcases hb with rfl | rfl
  · exact ⟨1, by decide, by decide⟩
  · exact ⟨2, by decide, by decide⟩

end Dupi.Props
