import Verif.Model.Main
import Verif.Spec.CommandLine
/-! # Parsing options -/

namespace Dupi
open Spec

namespace Flag

/-- an option is written as its flag wants it -/
structure Fine (fs : Bytes → Option Kind) (o : Opt) : Prop where
  name : o.name.head?.any (fun b => b != 45 && b != 61) = true
  noEq : 61 ∉ o.name
  kind : match fs o.name with
    | none => False
    | some .bool => (o.style = .bare ∧ o.value = trueB) ∨ (o.style = .equals ∧ (parseBool o.value).isSome)
    | some (.value ok) => o.style ≠ .bare ∧ ok o.value

theorem cut_plain (n : Bytes) (h : 61 ∉ n) (hn : n ≠ []) : cut n = (n, none) := by
  cases n with
  | nil => exact absurd rfl hn
  | cons b bs =>
    have : bs.findIdx? (· == 61) = none := by
      rw [List.findIdx?_eq_none_iff]
      intro x hx
      have : x ≠ 61 := fun e => h (by simp [← e, hx])
      simpa using this
    simp [cut, this]

theorem cut_eq (n v : Bytes) (h : 61 ∉ n) (hn : n ≠ []) : cut (n ++ 61 :: v) = (n, some v) := by
  cases n with
  | nil => exact absurd rfl hn
  | cons b bs =>
    have : (bs ++ 61 :: v).findIdx? (· == 61) = some bs.length := by
      rw [List.findIdx?_eq_some_iff_getElem]
      refine ⟨by simp, by simp, ?_⟩
      intro j hj
      rw [List.getElem_append_left hj]
      have : bs[j] ≠ 61 := fun e => h (by rw [← e]; simp)
      simpa using this
    simp [cut, this]

theorem named_fine {n m : Bytes} (h : n.head?.any (fun b => b != 45 && b != 61) = true) : named (n ++ m) = .flag (cut (n ++ m)).1 (cut (n ++ m)).2 := by
  cases n with
  | nil => simp at h
  | cons b bs =>
    simp at h
    simp [named, h]

theorem arg_fine (two : Bool) {n m : Bytes} (h : n.head?.any (fun b => b != 45 && b != 61) = true) :
    arg ((if two then [45, 45] else [45]) ++ (n ++ m)) = .flag (cut (n ++ m)).1 (cut (n ++ m)).2 := by
  have h1 := named_fine (m := m) h
  cases n with
  | nil => simp at h
  | cons b bs =>
    simp at h
    cases two with
    | true => simpa [arg] using h1
    | false =>
      simp only [Bool.false_eq_true, if_false, List.cons_append, List.nil_append] at h1 ⊢
      unfold arg
      split
      · rename_i heq
        injection heq with _ heq
        injection heq with heq _
        exact absurd heq h.1
      · rename_i heq
        injection heq with _ heq
        injection heq with e1 e2
        subst e1 e2
        exact h1
      · rename_i hh
        exact absurd rfl (hh b (bs ++ m))

theorem parse_opt {fs : Bytes → Option Kind} {o : Opt} (h : Fine fs o) (args : List Bytes) :
    parse fs (o.args ++ args) = (parse fs args).map fun r => ((o.name, o.value) :: r.1, r.2) := by
  obtain ⟨name, value, style, two⟩ := o
  obtain ⟨h1, h2, h3⟩ := h
  simp only at h1 h2 h3
  have hne : name ≠ [] := by rintro rfl; simp at h1
  have a1 := arg_fine two (m := []) h1
  rw [List.append_nil, cut_plain name h2 hne] at a1
  have a2 := arg_fine two (m := 61 :: value) h1
  rw [cut_eq name value h2 hne] at a2
  cases hk : fs name with
  | none => simp [hk] at h3
  | some k =>
    rw [hk] at h3
    cases k with
    | bool =>
      rcases h3 with ⟨rfl, rfl⟩ | ⟨rfl, hv⟩
      · simp only [Opt.args, List.cons_append, List.nil_append]
        rw [parse]
        simp only [a1, hk, Option.getD_none]
        rw [if_pos (by decide)]
      · simp only [Opt.args, List.cons_append, List.nil_append, List.append_assoc]
        rw [parse]
        simp only [a2, hk, Option.getD_some, hv, if_true]
    | value ok =>
      obtain ⟨hs, hv⟩ := h3
      cases style with
      | bare => exact absurd rfl hs
      | apart =>
        simp only [Opt.args, List.cons_append, List.nil_append]
        rw [parse]
        simp only [a1, hk, hv, if_true]
      | equals =>
        simp only [Opt.args, List.cons_append, List.nil_append, List.append_assoc]
        rw [parse]
        simp only [a2, hk, hv, if_true]

theorem parse_rest (fs : Bytes → Option Kind) {l r : List Bytes} (h : Rest l r) : parse fs l = some ([], r) := by
  cases h with
  | dashes => rfl
  | plain h =>
    cases l with
    | nil => rfl
    | cons a l =>
      have := h a (by simp)
      have ha : arg a = .other := by
        rcases this with h1 | rfl
        · unfold arg
          split
          · simp at h1
          · simp at h1
          · rfl
        · rfl
      rw [parse]
      simp only [ha]

/-- Options, written in any of the ways, and what follows them are told apart. -/
theorem parse_opts {fs : Bytes → Option Kind} {opts : List Opt} (h : ∀ o ∈ opts, Fine fs o) {l r : List Bytes} (hr : Rest l r) :
    parse fs (opts.flatMap Opt.args ++ l) = some (opts.map fun o => (o.name, o.value), r) := by
  induction opts with
  | nil => simpa using parse_rest fs hr
  | cons o opts ih =>
    rw [List.flatMap_cons, List.append_assoc, parse_opt (h o (by simp)), ih fun o' h' => h o' (by simp [h'])]
    rfl

theorem last_valueOf (opts : List Opt) (n : Bytes) : last (opts.map fun o => (o.name, o.value)) n = valueOf opts n := by
  unfold last valueOf
  rw [← List.map_reverse, List.find?_map, List.getLast?_eq_head?_reverse, ← List.map_reverse, ← List.filter_reverse]
  rw [List.head?_map, List.head?_filter]
  simp only [Option.map_map]
  congr 1
  congr 1
  funext o
  by_cases h : o.name = n <;> simp [h]

end Flag
end Dupi
