import Verif.Model.Program
import Verif.Proof.Main
import Verif.Spec.Misuse
/-! # Flags that are not as they should be -/

namespace Dupi
namespace Flag
open Spec

/-- the flags are those of the usage -/
structure Describes (U : Usage) (fs : Bytes → Option Kind) : Prop where
  named : ∀ n, n ∈ U.toggles ∨ n ∈ U.valued → Named n
  toggle : ∀ n, n ∈ U.toggles → fs n = some .bool
  value : ∀ n, n ∈ U.valued → ∃ ok, fs n = some (.value ok) ∧ ∀ x, ok x = true ↔ U.accepts n x
  other : ∀ n, n ∉ U.toggles → n ∉ U.valued → fs n = none
  truth : ∀ x, U.truth x ↔ (parseBool x).isSome

/-- a value after a name -/
def suffix : Option Bytes → Bytes
  | none => []
  | some v => 61 :: v

theorem cut_inv {n m : Bytes} {v : Option Bytes} (h : cut n = (m, v)) (hn : n ≠ []) (h1 : n.head? ≠ some 45) (h2 : n.head? ≠ some 61) :
    Named m ∧ n = m ++ suffix v := by
  cases n with
  | nil => exact absurd rfl hn
  | cons b bs =>
    simp only [List.head?_cons, ne_eq, Option.some.injEq] at h1 h2
    simp only [cut] at h
    cases hf : bs.findIdx? (· == 61) with
    | none =>
      rw [hf] at h
      simp only [Prod.mk.injEq] at h
      obtain ⟨rfl, rfl⟩ := h
      rw [List.findIdx?_eq_none_iff] at hf
      refine ⟨⟨by simp, by simp [h1], ?_⟩, by simp [suffix]⟩
      intro hm
      rcases List.mem_cons.mp hm with h | h
      · exact h2 h.symm
      · simpa using hf _ h
    | some i =>
      rw [hf] at h
      simp only [Prod.mk.injEq] at h
      obtain ⟨rfl, rfl⟩ := h
      rw [List.findIdx?_eq_some_iff_getElem] at hf
      obtain ⟨hi, e, hj⟩ := hf
      have e : bs[i] = 61 := by simpa using e
      refine ⟨⟨by simp, by simp [h1], ?_⟩, ?_⟩
      · intro hm
        rcases List.mem_cons.mp hm with h | h
        · exact h2 h.symm
        · obtain ⟨j, hj1, hj2⟩ := List.mem_iff_getElem.mp h
          rw [List.getElem_take] at hj2
          have hlt : j < i := by rw [List.length_take] at hj1; omega
          exact hj j hlt (by simp [hj2])
      · simp only [suffix, List.cons_append, List.cons.injEq, true_and]
        rw [← e, List.getElem_cons_drop hi, List.take_append_drop]

theorem named_inv {s : Bytes} {n : Bytes} {v : Option Bytes} (h : Flag.named s = .flag n v) :
    Named n ∧ s = n ++ suffix v := by
  cases s with
  | nil => simp [Flag.named] at h
  | cons b bs =>
    by_cases hb : b = 45 ∨ b = 61
    · simp [Flag.named, hb] at h
    · simp only [Flag.named, hb, if_false, Arg.flag.injEq] at h
      rw [not_or] at hb
      exact cut_inv (Prod.ext h.1 h.2) (by simp) (by simpa using hb.1) (by simpa using hb.2)

theorem named_bad {s : Bytes} (h : Flag.named s = .bad) : s = [] ∨ ∃ x, s = 45 :: x ∨ s = 61 :: x := by
  cases s with
  | nil => exact .inl rfl
  | cons b bs =>
    by_cases hb : b = 45 ∨ b = 61
    · rcases hb with rfl | rfl
      · exact .inr ⟨bs, .inl rfl⟩
      · exact .inr ⟨bs, .inr rfl⟩
    · simp [Flag.named, hb] at h

theorem named_cases (s : Bytes) : (∃ n v, Flag.named s = .flag n v) ∨ Flag.named s = .bad := by
  cases s with
  | nil => exact .inr rfl
  | cons b bs =>
    by_cases hb : b = 45 ∨ b = 61
    · right; simp [Flag.named, hb]
    · left; simp [Flag.named, hb]

/-- every argument is not an option, "--", malformed, or names an option -/
theorem arg_cases (s : Bytes) : (arg s = .other ∧ (s.head? ≠ some 45 ∨ s = [45])) ∨ (arg s = .dashes ∧ s = [45, 45]) ∨ (arg s = .bad ∧ Malformed s) ∨
    ∃ (n : Bytes) (v : Option Bytes) (two : Bool), arg s = .flag n v ∧ Named n ∧ s = (if two then [45, 45] else [45]) ++ (n ++ suffix v) := by
  unfold arg
  split
  · rename_i n
    by_cases hn : n = []
    · subst hn; exact .inr (.inl ⟨rfl, rfl⟩)
    · rw [if_neg hn]
      rcases named_cases n with ⟨m, v, h⟩ | h
      · obtain ⟨h1, h2⟩ := named_inv h
        exact .inr (.inr (.inr ⟨m, v, true, h, h1, by rw [if_pos rfl, ← h2]; rfl⟩))
      · rcases named_bad h with rfl | ⟨x, rfl | rfl⟩
        · exact absurd rfl hn
        · exact .inr (.inr (.inl ⟨h, x, .inr (.inr rfl)⟩))
        · exact .inr (.inr (.inl ⟨h, x, .inr (.inl rfl)⟩))
  · rename_i b n hb
    rcases named_cases (b :: n) with ⟨m, v, h⟩ | h
    · obtain ⟨h1, h2⟩ := named_inv h
      exact .inr (.inr (.inr ⟨m, v, false, h, h1, by rw [if_neg (by simp), ← h2]; rfl⟩))
    · rcases named_bad h with h0 | ⟨x, h0 | h0⟩
      · simp at h0
      · exact absurd (by injection h0) hb
      · simp only [List.cons.injEq] at h0
        obtain ⟨rfl, rfl⟩ := h0
        exact .inr (.inr (.inl ⟨h, n, .inl rfl⟩))
  · rename_i h1 h2
    left
    refine ⟨rfl, ?_⟩
    cases s with
    | nil => left; simp
    | cons a t =>
      by_cases ha : a = 45
      · subst ha
        cases t with
        | nil => exact .inr rfl
        | cons b n => exact absurd rfl (h2 b n)
      · left; simpa using ha

theorem arg_malformed {a : Bytes} (h : Malformed a) : arg a = .bad := by
  obtain ⟨x, rfl | rfl | rfl⟩ := h <;> simp [arg, Flag.named]

theorem _root_.Dupi.Spec.Named.fst {n : Bytes} (h : Named n) : n.head?.any (fun b => b != 45 && b != 61) = true := by
  cases n with
  | nil => exact absurd rfl h.ne
  | cons b bs =>
    have h1 := h.dash
    have h2 := h.noEq
    simp only [List.head?_cons, ne_eq, Option.some.injEq, List.mem_cons, not_or] at h1 h2
    simp [h1, Ne.symm h2.1]

theorem arg_bare {n : Bytes} (h : Named n) (two : Bool) : arg ((if two then [45, 45] else [45]) ++ n) = .flag n none := by
  have a1 := arg_fine two (m := []) h.fst
  rwa [List.append_nil, cut_plain n h.noEq h.ne] at a1

theorem arg_equals {n : Bytes} (h : Named n) (two : Bool) (v : Bytes) : arg ((if two then [45, 45] else [45]) ++ n ++ 61 :: v) = .flag n (some v) := by
  have a2 := arg_fine two (m := 61 :: v) h.fst
  rwa [cut_eq n v h.noEq h.ne, ← List.append_assoc] at a2

variable {U : Usage} {fs : Bytes → Option Kind} (D : Describes U fs)
include D

theorem Describes.fine {o : Opt} (h : U.Proper o) : Fine fs o := by
  rcases h with ⟨h1, h2, h3⟩ | ⟨h1, h2⟩
  · have hn := D.named _ (.inr h1)
    obtain ⟨ok, e, hok⟩ := D.value _ h1
    refine ⟨hn.fst, hn.noEq, ?_⟩
    rw [e]
    exact ⟨h2, (hok _).mpr h3⟩
  · have hn := D.named _ (.inl h1)
    refine ⟨hn.fst, hn.noEq, ?_⟩
    rw [D.toggle _ h1]
    rcases h2 with h2 | ⟨h2, h3⟩
    · exact .inl h2
    · exact .inr ⟨h2, (D.truth _).mp h3⟩

theorem Describes.parse_misused {opts : List Opt} (ho : ∀ o ∈ opts, U.Proper o) {l : List Bytes} (hl : parse fs l = none) :
    parse fs (opts.flatMap Opt.args ++ l) = none := by
  induction opts with
  | nil => exact hl
  | cons x xs ih => rw [List.flatMap_cons, List.append_assoc, parse_opt (D.fine (ho x (by simp))), ih fun o h => ho o (by simp [h])]; rfl

/-- a misused option ends the program -/
theorem Describes.misused {args : List Bytes} {b : Bool} (h : U.Misused args b) : parse fs args = none ∧ helps fs args = b := by
  cases h with
  | malformed h =>
    have := arg_malformed h
    rw [parse, helps]
    simp only [this, and_self]
  | @unknown o rest h h1 h2 =>
    have e := D.other _ h1 h2
    have a1 := arg_bare h o.two
    have a2 := arg_equals h o.two o.value
    unfold Opt.args
    cases o.style <;> simp only [List.cons_append, List.nil_append] <;> rw [parse, helps]
    · simp only [a1, e, helpNames, List.mem_cons, List.not_mem_nil, or_false, true_and, Bool.decide_or]
    · simp only [List.append_assoc] at a2 ⊢
      simp only [a2, e, helpNames, List.mem_cons, List.not_mem_nil, or_false, true_and, Bool.decide_or]
    · simp only [a1, e, helpNames, List.mem_cons, List.not_mem_nil, or_false, true_and, Bool.decide_or]
  | @toggle o rest h1 h2 h3 =>
    have h := D.named _ (.inl h1)
    have e := D.toggle _ h1
    have a2 := arg_equals h o.two o.value
    have h3 : ¬ (parseBool o.value).isSome := fun h => h3 ((D.truth _).mpr h)
    unfold Opt.args
    rw [h2]
    simp only [List.cons_append, List.nil_append]
    rw [parse, helps]
    simp only [List.append_assoc] at a2 ⊢
    simp only [a2, e, Option.getD_some, h3, Bool.false_eq_true, if_false, and_self]
  | @value o rest h1 h2 h3 =>
    have h := D.named _ (.inr h1)
    obtain ⟨ok, e, hok⟩ := D.value _ h1
    have a1 := arg_bare h o.two
    have a2 := arg_equals h o.two o.value
    have h3 : ¬ ok o.value = true := fun h => h3 ((hok _).mp h)
    unfold Opt.args
    cases hs : o.style <;> simp only [List.cons_append, List.nil_append]
    · rw [parse, helps]
      simp only [a1, e, h3, Bool.false_eq_true, if_false, and_self]
    · rw [parse, helps]
      simp only [List.append_assoc] at a2 ⊢
      simp only [a2, e, h3, Bool.false_eq_true, if_false, and_self]
    · exact absurd hs h2
  | @missing o h1 h2 =>
    have h := D.named _ (.inr h1)
    obtain ⟨ok, e, hok⟩ := D.value _ h1
    have a1 := arg_bare h o.two
    unfold Opt.args
    rw [h2]
    simp only
    rw [parse, helps]
    simp only [a1, e, and_self]

omit D in
/-- what arguments are made of -/
theorem _root_.Dupi.Spec.Usage.classify (U : Usage) : ∀ (k : Nat) (args : List Bytes), args.length ≤ k →
    ∃ (opts : List Opt) (l : List Bytes), (∀ o ∈ opts, U.Proper o) ∧ args = opts.flatMap Opt.args ++ l ∧ ((∃ rest, Rest l rest) ∨ ∃ b, U.Misused l b) := by
  intro k
  induction k with
  | zero =>
    intro args h
    obtain rfl := List.length_eq_zero_iff.mp (Nat.le_zero.mp h)
    exact ⟨[], [], by simp, rfl, .inl ⟨[], .plain (by simp)⟩⟩
  | succ k ih =>
    intro args hk
    cases args with
    | nil => exact ⟨[], [], by simp, rfl, .inl ⟨[], .plain (by simp)⟩⟩
    | cons s args =>
      simp only [List.length_cons, Nat.add_le_add_iff_right] at hk
      have one (o : Opt) (ho : U.Proper o) (tl : List Bytes) (htl : tl.length ≤ k) (e : s :: args = o.args ++ tl) :
          ∃ (opts : List Opt) (l : List Bytes), (∀ o ∈ opts, U.Proper o) ∧ s :: args = opts.flatMap Opt.args ++ l ∧ ((∃ rest, Rest l rest) ∨ ∃ b, U.Misused l b) := by
        obtain ⟨opts, l, h1, h2, h3⟩ := ih tl htl
        refine ⟨o :: opts, l, ?_, ?_, h3⟩
        · intro o' ho'
          rcases List.mem_cons.mp ho' with rfl | h
          · exact ho
          · exact h1 _ h
        · rw [e, h2, List.flatMap_cons, List.append_assoc]
      have stop (b : Bool) (hb : U.Misused (s :: args) b) :
          ∃ (opts : List Opt) (l : List Bytes), (∀ o ∈ opts, U.Proper o) ∧ s :: args = opts.flatMap Opt.args ++ l ∧ ((∃ rest, Rest l rest) ∨ ∃ b, U.Misused l b) :=
        ⟨[], s :: args, by simp, rfl, .inr ⟨b, hb⟩⟩
      rcases arg_cases s with ⟨_, h⟩ | ⟨_, rfl⟩ | ⟨_, h⟩ | ⟨n, v, two, _, hn, e⟩
      · exact ⟨[], s :: args, by simp, rfl, .inl ⟨_, .plain (by simpa using h)⟩⟩
      · exact ⟨[], _, by simp, rfl, .inl ⟨_, .dashes⟩⟩
      · exact stop _ (.malformed h)
      · by_cases ht : n ∈ U.toggles
        · cases v with
          | none =>
            refine one ⟨n, [116, 114, 117, 101], .bare, two⟩ (.inr ⟨ht, .inl ⟨rfl, rfl⟩⟩) args hk ?_
            simp only [suffix] at e
            simp only [Opt.args, List.cons_append, List.nil_append, e, List.append_nil]
          | some v =>
            have e' : s :: args = (Opt.mk n v .equals two).args ++ args := by
              simp only [suffix] at e
              simp only [Opt.args, List.cons_append, List.nil_append, e, List.append_assoc]
            by_cases hv : U.truth v
            · exact one ⟨n, v, .equals, two⟩ (.inr ⟨ht, .inr ⟨rfl, hv⟩⟩) args hk e'
            · refine stop false ?_
              rw [e']
              exact .toggle ht rfl hv
        · by_cases hv : n ∈ U.valued
          · cases v with
            | some v =>
              have e' : s :: args = (Opt.mk n v .equals two).args ++ args := by
                simp only [suffix] at e
                simp only [Opt.args, List.cons_append, List.nil_append, e, List.append_assoc]
              by_cases ha : U.accepts n v
              · exact one ⟨n, v, .equals, two⟩ (.inl ⟨hv, by simp, ha⟩) args hk e'
              · refine stop false ?_
                rw [e']
                exact .value hv (by simp) ha
            | none =>
              simp only [suffix, List.append_nil] at e
              cases args with
              | nil =>
                refine stop false ?_
                have e' : [s] = (Opt.mk n [] .bare two).args := by simp only [Opt.args, e]
                rw [e']
                exact .missing hv rfl
              | cons v args =>
                have e' : s :: v :: args = (Opt.mk n v .apart two).args ++ args := by
                  simp only [Opt.args, List.cons_append, List.nil_append, e]
                by_cases ha : U.accepts n v
                · exact one ⟨n, v, .apart, two⟩ (.inl ⟨hv, by simp, ha⟩) args (by simp at hk; omega) e'
                · refine stop false ?_
                  rw [e']
                  exact .value hv (by simp) ha
          · refine stop (n ∈ helpNames) ?_
            cases v with
            | none =>
              have e' : s :: args = (Opt.mk n [] .bare two).args ++ args := by
                simp only [suffix] at e
                simp only [Opt.args, List.cons_append, List.nil_append, e, List.append_nil]
              rw [e']
              exact .unknown (o := ⟨n, [], .bare, two⟩) hn ht hv
            | some v =>
              have e' : s :: args = (Opt.mk n v .equals two).args ++ args := by
                simp only [suffix] at e
                simp only [Opt.args, List.cons_append, List.nil_append, e, List.append_assoc]
              rw [e']
              exact .unknown (o := ⟨n, v, .equals, two⟩) hn ht hv

end Flag
end Dupi
