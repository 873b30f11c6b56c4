import Verif.Model.Usage
import Verif.Spec.Lines
/-! # C123: the usage message -/

namespace Dupi
namespace Props
open Spec Cmd

theorem textLines_ne (a : Bytes) : textLines a ≠ [] := by
  cases a with
  | nil => simp [textLines]
  | cons b bs =>
    unfold textLines
    split
    · simp
    · split <;> simp

theorem textLines_append (a b : Bytes) (h : 10 ∉ a) : textLines (a ++ 10 :: b) = a :: textLines b := by
  induction a with
  | nil => simp [textLines]
  | cons x xs ih =>
    simp only [List.mem_cons, not_or] at h
    rw [List.cons_append, textLines, if_neg (fun e => h.1 e.symm), ih h.2]

/-- the line of a verb without its end -/
def verbText (v : Verb) : Bytes := 9 :: padRight 10 v.name ++ 32 :: padLeft 30 v.usage

theorem verbText_plain (v : Verb) : 10 ∉ verbText v := by cases v <;> decide

theorem textLines_verbs (order : List Verb) (b : Bytes) : textLines (order.flatMap usageLine ++ b) = order.map verbText ++ textLines b := by
  induction order with
  | nil => rfl
  | cons v vs ih =>
    have : usageLine v = verbText v ++ [10] := rfl
    rw [List.flatMap_cons, List.append_assoc, this, List.append_assoc, List.singleton_append, textLines_append _ _ (verbText_plain v), ih,
      List.map_cons, List.cons_append]

/-- the lines above the verbs -/
def usageHead : List Bytes := (textLines (usage [])).take 2

/-- the lines below the verbs -/
def usageTail : List Bytes := (textLines (usage [])).drop 2

theorem textLines_usage (order : List Verb) : textLines (usage order) = usageHead ++ (order.map verbText ++ usageTail) := by
  have h : ∃ a b : Bytes, 10 ∉ a ∧ 10 ∉ b ∧ usageHead = [a, b] ∧
      ∃ t : Bytes, textLines t = usageTail ∧ usage order = a ++ 10 :: (b ++ 10 :: (order.flatMap usageLine ++ t)) := by
    refine ⟨usageHead.getD 0 [], usageHead.getD 1 [], by decide, by decide, by decide, ?_⟩
    refine ⟨(usage []).drop 51, by decide, ?_⟩
    unfold usage
    simp only [List.append_assoc]
    rfl
  obtain ⟨a, b, ha, hb, hh, t, ht, hu⟩ := h
  rw [hu, textLines_append _ _ ha, textLines_append _ _ hb, textLines_verbs, ht, hh]
  rfl

/-- an order in which the map of verbs can be gone through: each verb once -/
def MapOrder (order : List Verb) : Prop := order.Nodup ∧ ∀ v : Verb, v ∈ order

theorem filter_eq_one {order : List Verb} (h : order.Nodup) {v : Verb} (hv : v ∈ order) : order.filter (fun w => decide (w = v)) = [v] := by
  induction order with
  | nil => simp at hv
  | cons w ws ih =>
    rw [List.nodup_cons] at h
    by_cases hw : w = v
    · subst hw
      rw [List.filter_cons_of_pos (by simp), List.filter_eq_nil_iff.mpr]
      intro x hx
      simp only [decide_eq_true_eq]
      rintro rfl
      exact h.1 hx
    · rw [List.filter_cons_of_neg (by simpa using hw)]
      exact ih h.2 ((List.mem_cons.mp hv).resolve_left fun e => hw e.symm)

theorem lists_verbText (v w : Verb) : Lists v.name (verbText w) ↔ w = v := by cases v <;> cases w <;> decide

/-- **C123.**  In whatever order the map of verbs is gone through, the message has precisely one line for each verb: a tab, the name of the verb and a blank,
and at the end of the line what the verb says of its use.  All these lines have the same length. -/
theorem C123_once {order : List Verb} (h : MapOrder order) (v : Verb) :
    ∃ l, (textLines (usage order)).filter (fun l => decide (Lists v.name l)) = [l] ∧ EndsWith v.usage l ∧ l.length = 42 := by
  refine ⟨verbText v, ?_, by cases v <;> decide, by cases v <;> decide⟩
  rw [textLines_usage, List.filter_append, List.filter_append, List.filter_map]
  have h1 : usageHead.filter (fun l => decide (Lists v.name l)) = [] := by cases v <;> decide
  have h2 : usageTail.filter (fun l => decide (Lists v.name l)) = [] := by cases v <;> decide
  have h3 : ((fun l => decide (Lists v.name l)) ∘ verbText) = fun w => decide (w = v) := by
    funext w
    exact decide_eq_decide.mpr (lists_verbText v w)
  rw [h1, h2, h3, filter_eq_one h.1 (h.2 v)]
  rfl

theorem prefix_word {w a b : Bytes} (hw : 32 ∉ w) (ha : 32 ∉ a) (h : (w ++ [32]) <+: (a ++ 32 :: b)) : w = a := by
  induction w generalizing a with
  | nil =>
    cases a with
    | nil => rfl
    | cons x xs =>
      obtain ⟨t, ht⟩ := h
      simp only [List.nil_append, List.cons_append, List.cons.injEq] at ht
      exact absurd (by rw [ht.1]; simp) ha
  | cons x xs ih =>
    cases a with
    | nil =>
      obtain ⟨t, ht⟩ := h
      simp only [List.nil_append, List.cons_append, List.cons.injEq] at ht
      exact absurd (by rw [ht.1]; simp) hw
    | cons y ys =>
      rw [List.cons_append, List.cons_append, List.cons_prefix_cons] at h
      simp only [List.mem_cons, not_or] at hw ha
      rw [h.1, ih hw.2 ha.2 h.2]

/-- **C123.**  The words the message lists are the names of the verbs the program knows and the global options it knows, with a dash: no word without a blank
is listed that is neither, and none is missing. -/
theorem C123_listed {order : List Verb} (h : MapOrder order) {w : Bytes} (hw : 32 ∉ w) :
    (∃ l ∈ textLines (usage order), Lists w l) ↔ ((Verb.ofName w).isSome ∨ ∃ n, w = 45 :: n ∧ (gFlags n).isSome) := by
  have hflag : ∀ n, (gFlags n).isSome ↔ n = [114] := by
    intro n
    unfold gFlags
    split <;> simp_all
  have hname : (Verb.ofName w).isSome ↔ ∃ v : Verb, w = v.name := by
    constructor
    · intro g
      obtain ⟨v, hv⟩ := Option.isSome_iff_exists.mp g
      have := List.find?_some hv
      exact ⟨v, (beq_iff_eq.mp this).symm⟩
    · rintro ⟨v, rfl⟩
      cases v <;> decide
  rw [hname, textLines_usage]
  simp only [hflag]
  constructor
  · rintro ⟨l, hl, hp⟩
    rcases List.mem_append.mp hl with hl | hl
    · exfalso
      have hh : ∀ l ∈ usageHead, l.head? ≠ some 9 := by decide
      obtain ⟨t, rfl⟩ := hp
      exact hh _ hl rfl
    · rcases List.mem_append.mp hl with hl | hl
      · obtain ⟨v, _, rfl⟩ := List.mem_map.mp hl
        left
        refine ⟨v, ?_⟩
        have hb : ∃ b, verbText v = 9 :: (v.name ++ 32 :: b) := by
          refine ⟨(verbText v).drop (v.name.length + 2), ?_⟩
          cases v <;> decide
        obtain ⟨b, hb⟩ := hb
        rw [hb] at hp
        unfold Lists at hp
        rw [List.cons_append, List.cons_prefix_cons] at hp
        exact prefix_word hw (by cases v <;> decide) hp.2
      · right
        refine ⟨[114], ?_, rfl⟩
        have hh : ∀ l ∈ usageTail, l.head? = some 9 → l = 9 :: ([45, 114] ++ 32 :: l.drop 4) := by decide
        have h9 : l.head? = some 9 := by
          obtain ⟨t, rfl⟩ := hp
          rfl
        have := hh l hl h9
        rw [this] at hp
        unfold Lists at hp
        rw [List.cons_append, List.cons_prefix_cons] at hp
        exact prefix_word hw (by decide) hp.2
  · rintro (⟨v, rfl⟩ | ⟨n, rfl, rfl⟩)
    · refine ⟨verbText v, ?_, (lists_verbText v v).mpr rfl⟩
      exact List.mem_append_right _ (List.mem_append_left _ (List.mem_map_of_mem (h.2 v)))
    · have : ∃ l ∈ usageTail, Lists [45, 114] l := by decide
      obtain ⟨l, h1, h2⟩ := this
      exact ⟨l, List.mem_append_right _ (List.mem_append_right _ h1), h2⟩

/-- Two runs print the same lines, the lines of the verbs perhaps in another order. -/
theorem C123_same {o1 o2 : List Verb} (h1 : MapOrder o1) (h2 : MapOrder o2) : (textLines (usage o1)).Perm (textLines (usage o2)) := by
  rw [textLines_usage, textLines_usage]
  exact .append_left _ (.append_right _ (((List.perm_ext_iff_of_nodup h1.1 h2.1).mpr fun v => by simp [h1.2 v, h2.2 v]).map _))

/-- What is printed differs as often as the order of the map does: no two orders give the same message. -/
theorem C123_differs {o1 o2 : List Verb} (h : usage o1 = usage o2) : o1 = o2 := by
  have g := congrArg textLines h
  rw [textLines_usage, textLines_usage, List.append_cancel_left_eq, List.append_cancel_right_eq] at g
  have inj : ∀ v w : Verb, verbText v = verbText w → v = w := fun v w e => ((lists_verbText v w).mp (by rw [← e]; exact (lists_verbText v v).mpr rfl)).symm
  clear h
  induction o1 generalizing o2 with
  | nil => cases o2 <;> simp_all
  | cons v vs ih =>
    cases o2 with
    | nil => simp at g
    | cons w ws =>
      simp only [List.map_cons, List.cons.injEq] at g
      rw [inj v w g.1, ih g.2]

/-- There are such orders, and two that give different messages. -/
theorem C123_nonvacuous : ∃ o1 o2 : List Verb, MapOrder o1 ∧ MapOrder o2 ∧ usage o1 ≠ usage o2 := by
  refine ⟨[.index, .extract, .blot, .unblot, .inspect, .like], [.like, .index, .extract, .blot, .unblot, .inspect], ⟨by decide, fun v => by cases v <;> decide⟩,
    ⟨by decide, fun v => by cases v <;> decide⟩, fun h => ?_⟩
  have := C123_differs h
  simp at this

end Props
end Dupi
