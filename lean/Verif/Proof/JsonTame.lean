import Verif.Proof.Crash
import Verif.Model.Json
/-! # Reading JSON does not panic -/

namespace Dupi.Json
open Dupi

theorem bad_tame {α : Type} : Tame (bad : M α) := .fail _

theorem parseStr_tame (n : Nat) : ∀ s, Tame (parseStr n s) := by
  induction n with
  | zero => intro s; exact bad_tame
  | succ n ih =>
    intro s
    cases s with
    | nil => exact bad_tame
    | cons b t =>
      rw [parseStr.eq_def]
      simp only []
      split
      · exact .ok _
      · split
        · split
          · exact bad_tame
          · split
            · split
              · exact bad_tame
              · exact (ih _).bind fun _ _ => .ok _
            · split
              · exact bad_tame
              · exact (ih _).bind fun _ _ => .ok _
        · split
          · exact bad_tame
          · exact (ih _).bind fun _ _ => .ok _

theorem parseIntPart_tame (s : Bytes) : Tame (parseIntPart s) := by
  unfold parseIntPart
  split
  · exact bad_tame
  · split
    · exact .ok _
    · split
      · exact .ok _
      · exact bad_tame

theorem parseDigits_tame (s : Bytes) : Tame (parseDigits s) := by
  unfold parseDigits
  split
  · exact bad_tame
  · exact .ok _

theorem parseFrac_tame (s : Bytes) : Tame (parseFrac s) := by
  unfold parseFrac
  split
  · exact (parseDigits_tame _).bind fun _ _ => .ok _
  · exact .ok _

theorem parseExp_tame (s : Bytes) : Tame (parseExp s) := by
  unfold parseExp
  split
  · exact .ok _
  · split
    · split
      · split
        · exact (parseDigits_tame _).bind fun _ _ => .ok _
        · exact (parseDigits_tame _).bind fun _ _ => .ok _
      · exact bad_tame
    · exact .ok _

theorem parseNum_tame (s : Bytes) : Tame (parseNum s) := by
  unfold parseNum
  exact (parseIntPart_tame _).bind fun _ _ => (parseFrac_tame _).bind fun _ _ => (parseExp_tame _).bind fun _ _ => .ok _

theorem parseMembers_tame {pv : Bytes → M (Value × Bytes)} (hp : ∀ s, Tame (pv s)) (n : Nat) : ∀ s, Tame (parseMembers pv n s) := by
  induction n with
  | zero => intro s; exact bad_tame
  | succ n ih =>
    intro s
    rw [parseMembers.eq_def]
    simp only []
    split
    · refine (parseStr_tame _ _).bind fun a _ => ?_
      split
      · refine (hp _).bind fun b _ => ?_
        split
        · exact (ih _).bind fun _ _ => .ok _
        · exact .ok _
        · exact bad_tame
      · exact bad_tame
    · exact bad_tame

theorem parseElems_tame {pv : Bytes → M (Value × Bytes)} (hp : ∀ s, Tame (pv s)) (n : Nat) : ∀ s, Tame (parseElems pv n s) := by
  induction n with
  | zero => intro s; exact bad_tame
  | succ n ih =>
    intro s
    rw [parseElems.eq_def]
    simp only []
    refine (hp _).bind fun b _ => ?_
    split
    · exact (ih _).bind fun _ _ => .ok _
    · exact .ok _
    · exact bad_tame

theorem parseValue_tame (n : Nat) : ∀ s, Tame (parseValue n s) := by
  induction n with
  | zero => intro s; exact bad_tame
  | succ n ih =>
    intro s
    rw [parseValue.eq_def]
    simp only []
    repeat' split
    all_goals first
      | exact bad_tame
      | exact .ok _
      | exact (parseMembers_tame ih _ _).bind fun _ _ => .ok _
      | exact (parseElems_tame ih _ _).bind fun _ _ => .ok _
      | exact (parseStr_tame _ _).bind fun _ _ => .ok _
      | exact parseNum_tame _

theorem parse_tame (s : Bytes) : Tame (parse s) := by
  unfold parse
  refine (parseValue_tame _ _).bind fun a _ => ?_
  simp only []
  split
  · exact .ok _
  · exact bad_tame

theorem parseInt_tame (s : Bytes) : Tame (parseInt s) := by
  unfold parseInt
  repeat' split
  all_goals first
    | exact bad_tame
    | exact .ok _

theorem asInt_tame (v : Value) (old : Int) : Tame (asInt v old) := by
  unfold asInt
  split
  · exact .ok _
  · exact parseInt_tame _
  · exact bad_tame

theorem asStr_tame (v : Value) (old : Bytes) : Tame (asStr v old) := by
  unfold asStr
  split
  · exact .ok _
  · exact .ok _
  · exact bad_tame

theorem setAll_tame {α : Type} {names : List String} {set : α → String → Value → M α} (hs : ∀ c n v, Tame (set c n v)) (ms : List (Bytes × Value)) :
    ∀ c, Tame (setAll names set c ms) := by
  induction ms with
  | nil => intro c; exact .ok _
  | cons m ms ih =>
    intro c
    rw [setAll.eq_def]
    simp only []
    split
    · exact ih _
    · exact (hs _ _ _).bind fun _ _ => ih _

theorem asStruct_tame {α : Type} {names : List String} {set : α → String → Value → M α} (hs : ∀ c n v, Tame (set c n v)) (v : Value) (old : α) :
    Tame (asStruct names set v old) := by
  unfold asStruct
  split
  · exact .ok _
  · exact setAll_tame hs _ _
  · exact bad_tame

theorem setToken_tame (c : TokenConfig) (n : String) (v : Value) : Tame (setToken c n v) := by
  unfold setToken
  split
  · exact (asStr_tame _ _).bind fun _ _ => .ok _
  · exact .ok _

theorem setBlot_tame (c : BlotConfig) (n : String) (v : Value) : Tame (setBlot c n v) := by
  unfold setBlot
  repeat' split
  all_goals first
    | exact (asInt_tame _ _).bind fun _ _ => .ok _
    | exact .ok _

theorem setConfig_tame (c : Config) (n : String) (v : Value) : Tame (setConfig c n v) := by
  unfold setConfig
  repeat' split
  all_goals first
    | exact (asInt_tame _ _).bind fun _ _ => .ok _
    | exact (asStr_tame _ _).bind fun _ _ => .ok _
    | exact (asStruct_tame setToken_tame _ _).bind fun _ _ => .ok _
    | exact (asStruct_tame setBlot_tame _ _).bind fun _ _ => .ok _
    | exact .ok _

/-- whatever the file `cfg.json` contains, a configuration or an error is returned -/
theorem codec_tame (b : Bytes) : Tame (codec.dec b) :=
  (parse_tame b).bind fun _ _ => asStruct_tame setConfig_tame _ _

end Dupi.Json
