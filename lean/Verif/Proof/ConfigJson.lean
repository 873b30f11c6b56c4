import Verif.Proof.JsonWrite
import Verif.Spec.ConfigJson
/-! # encoding/json reads every JSON text for a configuration -/

namespace Dupi.Json
open Spec

/-! ## keys -/

theorem toNat_foldChar (c : Char) : (foldChar c).toNat =
    if 65 ≤ c.toNat ∧ c.toNat ≤ 90 then c.toNat + 32 else if c.toNat = 0x17F then 115 else if c.toNat = 0x212A then 107 else c.toNat := by
  unfold foldChar
  have e : ('A' ≤ c ∧ c ≤ 'Z') ↔ (65 ≤ c.toNat ∧ c.toNat ≤ 90) := by
    rw [Char.le_def, Char.le_def, UInt32.le_iff_toNat_le, UInt32.le_iff_toNat_le]; exact Iff.rfl
  by_cases h : 65 ≤ c.toNat ∧ c.toNat ≤ 90
  · rw [if_pos (e.mpr h), if_pos h]
    have g : (c.toNat + 32).isValidChar := .inl (by omega)
    rw [Char.ofNat, dif_pos g]
    rfl
  · rw [if_neg (fun g => h (e.mp g)), if_neg h]
    split
    · rfl
    · split <;> rfl

theorem foldKey_utf8 (k : List Char) : foldKey (utf8 k) = (k.map foldChar).map Char.toNat := by
  unfold foldKey
  rw [decode_utf8, List.map_map, List.map_map]
  refine List.map_congr_left fun c _ => ?_
  simp only [Function.comp, runeOf, toNat_foldChar]

theorem sameKey_iff (k k' : List Char) : SameKey k k' ↔ foldKey (utf8 k) = foldKey (utf8 k') := by
  rw [foldKey_utf8, foldKey_utf8]
  exact ⟨fun h => by rw [h], fun h => List.map_injective_iff.mpr (fun a b h => Char.toNat_inj.mp h) h⟩

/-- names that differ by more than case -/
def Distinct (names : List String) : Prop := ∀ n ∈ names, ∀ n' ∈ names, SameKey n.toList n'.toList → n = n'

theorem field_same {names : List String} (hd : Distinct names) {n : String} (hn : n ∈ names) {k : List Char} (h : SameKey n.toList k) :
    field names (utf8 k) = some n := by
  unfold field
  split
  · rename_i n' h'
    have h1 := List.find?_some h'
    have h2 := List.mem_of_find?_eq_some h'
    simp only [decide_eq_true_eq] at h1
    rw [key_utf8] at h1
    rw [hd n' h2 n hn (by rw [sameKey_iff, h1, ← sameKey_iff]; exact h.symm)]
  · cases hf : names.find? fun n => foldKey n.toUTF8.toList = foldKey (utf8 k) with
    | none =>
      have := List.find?_eq_none.mp hf n hn
      simp only [decide_eq_true_eq] at this
      rw [key_utf8] at this
      exact absurd ((sameKey_iff _ _).mp h) this
    | some n' =>
      have h1 := List.find?_some hf
      simp only [decide_eq_true_eq] at h1
      rw [key_utf8] at h1
      rw [hd n' (List.mem_of_find?_eq_some hf) n hn (((sameKey_iff _ _).mpr h1).trans h.symm)]

theorem field_other {names : List String} {k : List Char} (h : ∀ n ∈ names, ¬ SameKey n.toList k) : field names (utf8 k) = none := by
  unfold field
  have h1 : (names.find? fun n => n.toUTF8.toList = utf8 k) = none := by
    refine List.find?_eq_none.mpr fun n hn => ?_
    simp only [decide_eq_true_eq, key_utf8]
    intro e
    exact h n hn (by rw [sameKey_iff, e])
  rw [h1]
  refine List.find?_eq_none.mpr fun n hn => ?_
  simp only [decide_eq_true_eq, key_utf8]
  exact fun e => h n hn ((sameKey_iff _ _).mpr e)

/-! ## members -/

section
variable {α : Type} {names : List String} (hd : Distinct names) {set : α → String → Value → M α} {I : α → Prop} {P : String → α → Prop} {holds : String → JVal → Prop}
  (hnull : ∀ x n, set x n .null = .ok x)
  (hset : ∀ x n v, n ∈ names → I x → holds n v → ∃ x', set x n (conv v) = .ok x' ∧ I x' ∧ P n x' ∧ ∀ m ∈ names, P m x → P m x')
include hd hnull hset

/-- `P n x`: the field `n` of `x` has its value; `I x`: it has its value or none, for all fields -/
theorem setAll_members : ∀ (ms : List (List Char × JVal)),
    (∀ m ∈ ms, m.2 = .null ∨ (∀ n ∈ names, ¬ SameKey n.toList m.1) ∨ ∃ n ∈ names, SameKey n.toList m.1 ∧ holds n m.2) →
    ∀ x, I x → ∃ x', setAll names set x (convm ms) = .ok x' ∧ I x' ∧ (∀ n ∈ names, P n x → P n x') ∧
      ∀ n ∈ names, (∃ m ∈ ms, SameKey n.toList m.1 ∧ m.2 ≠ .null ∧ holds n m.2) → P n x'
  | [], _, x, hx => ⟨x, rfl, hx, fun _ _ h => h, by simp⟩
  | (k, v) :: ms, h, x, hx => by
    have ih := setAll_members ms fun m hm => h m (by simp [hm])
    have h1 := h (k, v) (by simp)
    simp only at h1
    have skip (hh : ∀ n ∈ names, SameKey n.toList k → v = .null) (hs : setAll names set x ((utf8 k, conv v) :: convm ms) = setAll names set x (convm ms)) :
        ∃ x', setAll names set x ((utf8 k, conv v) :: convm ms) = .ok x' ∧ I x' ∧ (∀ n ∈ names, P n x → P n x') ∧
          ∀ n ∈ names, (∃ m ∈ (k, v) :: ms, SameKey n.toList m.1 ∧ m.2 ≠ .null ∧ holds n m.2) → P n x' := by
      obtain ⟨x', e, g1, g2, g3⟩ := ih x hx
      refine ⟨x', hs.trans e, g1, g2, ?_⟩
      rintro n hn ⟨m, hm, a, b, c⟩
      rcases List.mem_cons.mp hm with rfl | hm
      · exact absurd (hh n hn a) b
      · exact g3 n hn ⟨m, hm, a, b, c⟩
    rw [convm]
    by_cases hv : v = .null
    · subst hv
      refine skip (fun _ _ _ => rfl) ?_
      rw [setAll]
      cases field names (utf8 k) with
      | none => rfl
      | some n => simp only [conv, hnull, bind, Except.bind]
    · rcases h1 with h1 | h1 | ⟨n, hn, h1, h2⟩
      · exact absurd h1 hv
      · refine skip (fun n hn h => absurd h (h1 n hn)) ?_
        rw [setAll, field_other h1]
      · obtain ⟨x1, e1, a1, a2, a3⟩ := hset x n v hn hx h2
        obtain ⟨x', e, g1, g2, g3⟩ := ih x1 a1
        refine ⟨x', ?_, g1, fun m hm hp => g2 m hm (a3 m hm hp), ?_⟩
        · rw [setAll, field_same hd hn h1]
          simp only [e1, bind, Except.bind]
          exact e
        · rintro n' hn' ⟨m, hm, a, b, c⟩
          rcases List.mem_cons.mp hm with rfl | hm
          · have : n' = n := hd n' hn' n hn (a.trans h1.symm)
            subst this
            exact g2 n' hn a2
          · exact g3 n' hn' ⟨m, hm, a, b, c⟩

end

/-! ## values -/

theorem digitsVal_some (t : Bytes) (h : ∀ b ∈ t, ∃ v, v < 10 ∧ digitVal b = some v) : ∀ a, ∃ n, digitsVal a t = some n := by
  induction t with
  | nil => intro a; exact ⟨a, rfl⟩
  | cons b t ih =>
    intro a
    obtain ⟨v, h1, h2⟩ := h b (by simp)
    have hb : isDig b = true := by
      unfold digitVal at h2
      split at h2
      · rename_i g
        simp only [isDig, Bool.and_eq_true, decide_eq_true_eq, UInt8.le_iff_toNat_le]
        exact g
      · split at h2
        · injection h2 with h2
          omega
        · cases h2
    rw [digitsVal, if_pos hb]
    exact ih (fun b hb => h b (by simp [hb])) _

theorem asInt_is {i : Int} {v : JVal} (h : IntIs i v) (hi : IsInt i) (old : Int) : asInt (conv v) old = .ok i := by
  obtain ⟨n, t, ⟨h1, h2, h3, _⟩, h4⟩ := h
  obtain ⟨m, hm⟩ := digitsVal_some t h2 0
  have : m = n := (digitsVal_fold t 0 m hm).symm.trans h3
  subst this
  obtain ⟨hi1, hi2⟩ := hi
  rcases h4 with ⟨rfl, rfl⟩ | ⟨rfl, rfl⟩
  · exact (parseInt_iff _ _).mpr ⟨t, m, h1, hm, .inl ⟨rfl, by omega, rfl⟩⟩
  · exact (parseInt_iff _ _).mpr ⟨t, m, h1, hm, .inr ⟨rfl, by omega, rfl⟩⟩

theorem asStr_is {s : Bytes} {v : JVal} (h : StrIs s v) (old : Bytes) : asStr (conv v) old = .ok s := by
  obtain ⟨cs, rfl, rfl⟩ := h
  rfl

theorem intIs_null {i : Int} : ¬ IntIs i .null := by
  rintro ⟨n, t, _, ⟨h, _⟩ | ⟨h, _⟩⟩ <;> cases h

theorem strIs_null {s : Bytes} : ¬ StrIs s .null := by
  rintro ⟨cs, h, _⟩; cases h

/-! ## structures -/

theorem distinct_token : Distinct ["Name"] := by unfold Distinct SameKey; decide +kernel
theorem distinct_blot : Distinct ["SeqLen", "Interleave"] := by unfold Distinct SameKey; decide +kernel
theorem distinct_config : Distinct configNames := by unfold Distinct SameKey; decide +kernel

theorem describes_names {fs : List JField} {names : List String} (hn : fs.map JField.name = names) {holds : String → JVal → Prop}
    (hh : ∀ f ∈ fs, ∀ v, f.holds v → holds f.name v) {ms : List (List Char × JVal)} (h : Describes fs ms) :
    ∀ m ∈ ms, m.2 = .null ∨ (∀ n ∈ names, ¬ SameKey n.toList m.1) ∨ ∃ n ∈ names, SameKey n.toList m.1 ∧ holds n m.2 := by
  subst hn
  intro m hm
  rcases h.1 m hm with h | h | ⟨f, hf, h1, h2⟩
  · exact .inl h
  · refine .inr (.inl fun n hn => ?_)
    obtain ⟨f, hf, rfl⟩ := List.mem_map.mp hn
    exact h f hf
  · exact .inr (.inr ⟨f.name, List.mem_map.mpr ⟨f, hf, rfl⟩, h1, hh f hf _ h2⟩)

theorem token_read (c : TokenConfig) {v : JVal} (h : ∃ ms, v = .obj ms ∧ Describes (tokenFields c) ms) (old : TokenConfig) (ho : old.name = [] ∨ old.name = c.name) :
    asStruct ["Name"] setToken (conv v) old = .ok c := by
  obtain ⟨ms, rfl, h⟩ := h
  obtain ⟨x', e, h1, h2, h3⟩ := setAll_members (P := fun _ x => x.name = c.name) (I := fun x => x.name = [] ∨ x.name = c.name) (holds := fun _ => StrIs c.name)
    distinct_token (set := setToken) (fun x n => by unfold setToken; split <;> rfl)
    (fun x n v hn hx hv => by
      rw [List.mem_singleton] at hn
      subst hn
      refine ⟨⟨c.name⟩, ?_, .inr rfl, rfl, fun _ _ _ => rfl⟩
      simp only [setToken, if_true, asStr_is hv, bind, Except.bind, pure, Except.pure])
    ms (describes_names rfl (by simp [tokenFields, strField]) h) old ho
  have hx : x'.name = c.name := by
    rcases h.2 (strField "Name" c.name) (by simp [tokenFields]) with g | ⟨m, hm, g1, g2⟩
    · rcases h1 with h1 | h1
      · rw [h1]; exact g.symm
      · exact h1
    · exact h3 "Name" (by simp) ⟨m, hm, g1, fun e => strIs_null (e ▸ g2), g2⟩
  rw [conv, asStruct, e]
  cases x'; cases c; simp_all

theorem blot_read (c : BlotConfig) (hs : IsInt c.seqLen) (hi : IsInt c.interleave) {v : JVal} (h : ∃ ms, v = .obj ms ∧ Describes (blotFields c) ms) (old : BlotConfig)
    (ho : (old.seqLen = 0 ∨ old.seqLen = c.seqLen) ∧ (old.interleave = 0 ∨ old.interleave = c.interleave)) :
    asStruct ["SeqLen", "Interleave"] setBlot (conv v) old = .ok c := by
  obtain ⟨ms, rfl, h⟩ := h
  obtain ⟨x', e, ⟨h1, h1'⟩, h2, h3⟩ := setAll_members
    (P := fun n x => (n = "SeqLen" → x.seqLen = c.seqLen) ∧ (n = "Interleave" → x.interleave = c.interleave))
    (I := fun x => (x.seqLen = 0 ∨ x.seqLen = c.seqLen) ∧ (x.interleave = 0 ∨ x.interleave = c.interleave))
    (holds := fun n v => (n = "SeqLen" → IntIs c.seqLen v) ∧ (n = "Interleave" → IntIs c.interleave v))
    distinct_blot (set := setBlot) (fun x n => by unfold setBlot; repeat' (first | split | rfl))
    (fun x n v hn hx hv => by
      simp only [List.mem_cons, List.not_mem_nil, or_false] at hn
      rcases hn with rfl | rfl
      · refine ⟨{ x with seqLen := c.seqLen }, ?_, ⟨.inr rfl, hx.2⟩, ⟨fun _ => rfl, by simp⟩, fun m _ hm => ⟨fun _ => rfl, hm.2⟩⟩
        simp only [setBlot, if_true, asInt_is (hv.1 rfl) hs, bind, Except.bind, pure, Except.pure]
      · refine ⟨{ x with interleave := c.interleave }, ?_, ⟨hx.1, .inr rfl⟩, ⟨by simp, fun _ => rfl⟩, fun m _ hm => ⟨hm.1, fun _ => rfl⟩⟩
        simp only [setBlot, show ("Interleave" = "SeqLen") = False by simp, if_false, if_true, asInt_is (hv.2 rfl) hi, bind, Except.bind, pure, Except.pure])
    ms (describes_names (holds := fun n v => (n = "SeqLen" → IntIs c.seqLen v) ∧ (n = "Interleave" → IntIs c.interleave v)) (names := ["SeqLen", "Interleave"]) rfl
      (by simp [blotFields, intField]) h) old ho
  have hx1 : x'.seqLen = c.seqLen := by
    rcases h.2 (intField "SeqLen" c.seqLen) (by simp [blotFields]) with g | ⟨m, hm, g1, g2⟩
    · rcases h1 with h1 | h1
      · rw [h1]; exact g.symm
      · exact h1
    · exact (h3 "SeqLen" (by simp) ⟨m, hm, g1, fun e => intIs_null (e ▸ g2), fun _ => g2, by simp⟩).1 rfl
  have hx2 : x'.interleave = c.interleave := by
    rcases h.2 (intField "Interleave" c.interleave) (by simp [blotFields]) with g | ⟨m, hm, g1, g2⟩
    · rcases h1' with h1 | h1
      · rw [h1]; exact g.symm
      · exact h1
    · exact (h3 "Interleave" (by simp) ⟨m, hm, g1, fun e => intIs_null (e ▸ g2), by simp, fun _ => g2⟩).2 rfl
  rw [conv, asStruct, e]
  cases x'; cases c; simp_all

/-- the value of a field of a configuration -/
def FieldIs (c : Config) (n : String) (x : Config) : Prop :=
  (n = "IndexRoot" → x.indexRoot = c.indexRoot) ∧ (n = "SeqLen" → x.seqLen = c.seqLen) ∧ (n = "NumShards" → x.numShards = c.numShards) ∧
    (n = "NumShatters" → x.numShatters = c.numShatters) ∧ (n = "DocFlushRate" → x.docFlushRate = c.docFlushRate) ∧
    (n = "TokenConfig" → x.tokenConfig = c.tokenConfig) ∧ (n = "BlotConfig" → x.blotConfig = c.blotConfig)

def FieldHolds (c : Config) (n : String) (v : JVal) : Prop := ∃ f ∈ configFields c, f.name = n ∧ f.holds v

/-- nothing or the value -/
def Half (c x : Config) : Prop :=
  (x.indexRoot = [] ∨ x.indexRoot = c.indexRoot) ∧ (x.seqLen = 0 ∨ x.seqLen = c.seqLen) ∧ (x.numShards = 0 ∨ x.numShards = c.numShards) ∧
    (x.numShatters = 0 ∨ x.numShatters = c.numShatters) ∧ (x.docFlushRate = 0 ∨ x.docFlushRate = c.docFlushRate) ∧
    (x.tokenConfig = ⟨[]⟩ ∨ x.tokenConfig = c.tokenConfig) ∧ (x.blotConfig = ⟨0, 0⟩ ∨ x.blotConfig = c.blotConfig)

theorem setConfig_null (x : Config) (n : String) : setConfig x n .null = .ok x := by
  unfold setConfig; repeat' (first | split | rfl)

theorem setConfig_holds {c : Config} (hc : Ints c) (x : Config) (n : String) (v : JVal) (hx : Half c x) (hv : FieldHolds c n v) :
    ∃ x', setConfig x n (conv v) = .ok x' ∧ Half c x' ∧ FieldIs c n x' ∧ ∀ m, FieldIs c m x → FieldIs c m x' := by
  obtain ⟨f, hf, rfl, hv⟩ := hv
  obtain ⟨x1, x2, x3, x4, x5, x6, x7⟩ := hx
  simp only [configFields, List.mem_cons, List.not_mem_nil, or_false] at hf
  rcases hf with rfl | rfl | rfl | rfl | rfl | rfl | rfl <;> simp only [strField, intField, objField] at hv ⊢
  · refine ⟨{ x with indexRoot := c.indexRoot }, ?_, ⟨.inr rfl, x2, x3, x4, x5, x6, x7⟩, by simp [FieldIs], fun m hm => ?_⟩
    · simp only [setConfig, if_true, asStr_is hv, bind, Except.bind, pure, Except.pure]
    · obtain ⟨y1, y2, y3, y4, y5, y6, y7⟩ := hm
      exact ⟨fun _ => rfl, y2, y3, y4, y5, y6, y7⟩
  · refine ⟨{ x with seqLen := c.seqLen }, ?_, ⟨x1, .inr rfl, x3, x4, x5, x6, x7⟩, by simp [FieldIs], fun m hm => ?_⟩
    · unfold setConfig
      rw [if_neg (by decide), if_pos rfl, asInt_is hv hc.seqLen]; rfl
    · obtain ⟨y1, y2, y3, y4, y5, y6, y7⟩ := hm
      exact ⟨y1, fun _ => rfl, y3, y4, y5, y6, y7⟩
  · refine ⟨{ x with numShards := c.numShards }, ?_, ⟨x1, x2, .inr rfl, x4, x5, x6, x7⟩, by simp [FieldIs], fun m hm => ?_⟩
    · unfold setConfig
      rw [if_neg (by decide), if_neg (by decide), if_pos rfl, asInt_is hv hc.numShards]; rfl
    · obtain ⟨y1, y2, y3, y4, y5, y6, y7⟩ := hm
      exact ⟨y1, y2, fun _ => rfl, y4, y5, y6, y7⟩
  · refine ⟨{ x with numShatters := c.numShatters }, ?_, ⟨x1, x2, x3, .inr rfl, x5, x6, x7⟩, by simp [FieldIs], fun m hm => ?_⟩
    · unfold setConfig
      rw [if_neg (by decide), if_neg (by decide), if_neg (by decide), if_pos rfl, asInt_is hv hc.numShatters]; rfl
    · obtain ⟨y1, y2, y3, y4, y5, y6, y7⟩ := hm
      exact ⟨y1, y2, y3, fun _ => rfl, y5, y6, y7⟩
  · refine ⟨{ x with docFlushRate := c.docFlushRate }, ?_, ⟨x1, x2, x3, x4, .inr rfl, x6, x7⟩, by simp [FieldIs], fun m hm => ?_⟩
    · unfold setConfig
      rw [if_neg (by decide), if_neg (by decide), if_neg (by decide), if_neg (by decide), if_pos rfl, asInt_is hv hc.docFlushRate]; rfl
    · obtain ⟨y1, y2, y3, y4, y5, y6, y7⟩ := hm
      exact ⟨y1, y2, y3, y4, fun _ => rfl, y6, y7⟩
  · refine ⟨{ x with tokenConfig := c.tokenConfig }, ?_, ⟨x1, x2, x3, x4, x5, .inr rfl, x7⟩, by simp [FieldIs], fun m hm => ?_⟩
    · unfold setConfig
      rw [if_neg (by decide), if_neg (by decide), if_neg (by decide), if_neg (by decide), if_neg (by decide), if_pos rfl,
        token_read c.tokenConfig hv x.tokenConfig (by rcases x6 with h | h <;> simp [h])]; rfl
    · obtain ⟨y1, y2, y3, y4, y5, y6, y7⟩ := hm
      exact ⟨y1, y2, y3, y4, y5, fun _ => rfl, y7⟩
  · refine ⟨{ x with blotConfig := c.blotConfig }, ?_, ⟨x1, x2, x3, x4, x5, x6, .inr rfl⟩, by simp [FieldIs], fun m hm => ?_⟩
    · unfold setConfig
      rw [if_neg (by decide), if_neg (by decide), if_neg (by decide), if_neg (by decide), if_neg (by decide), if_neg (by decide), if_pos rfl,
        blot_read c.blotConfig hc.blotSeqLen hc.interleave hv x.blotConfig (by rcases x7 with h | h <;> simp [h])]; rfl
    · obtain ⟨y1, y2, y3, y4, y5, y6, y7⟩ := hm
      exact ⟨y1, y2, y3, y4, y5, y6, fun _ => rfl⟩

/-- a field that may be left out is nothing -/
theorem absent_is {c x : Config} (h : Half c x) (f : JField) (hf : f ∈ configFields c) (ha : f.absent) : FieldIs c f.name x := by
  obtain ⟨x1, x2, x3, x4, x5, x6, x7⟩ := h
  simp only [configFields, List.mem_cons, List.not_mem_nil, or_false] at hf
  rcases hf with rfl | rfl | rfl | rfl | rfl | rfl | rfl <;> simp only [strField, intField, objField, tokenFields, blotFields] at ha ⊢ <;> simp [FieldIs]
  · rcases x1 with h | h <;> simp [h, ha]
  · rcases x2 with h | h <;> simp [h, ha]
  · rcases x3 with h | h <;> simp [h, ha]
  · rcases x4 with h | h <;> simp [h, ha]
  · rcases x5 with h | h <;> simp [h, ha]
  · rcases x6 with h | h
    · rw [h]
      simp only [List.mem_singleton, forall_eq] at ha
      cases hc : c.tokenConfig
      rw [hc] at ha
      simp only at ha
      rw [ha]
    · exact h
  · rcases x7 with h | h
    · rw [h]
      simp only [List.mem_cons, List.not_mem_nil, or_false, forall_eq_or_imp, forall_eq] at ha
      cases hc : c.blotConfig
      rw [hc] at ha
      simp only at ha
      rw [ha.1, ha.2]
    · exact h

theorem not_null {c : Config} {f : JField} (hf : f ∈ configFields c) : ¬ f.holds .null := by
  simp only [configFields, List.mem_cons, List.not_mem_nil, or_false] at hf
  rcases hf with rfl | rfl | rfl | rfl | rfl | rfl | rfl <;> simp only [strField, intField, objField]
  · exact strIs_null
  · exact intIs_null
  · exact intIs_null
  · exact intIs_null
  · exact intIs_null
  · rintro ⟨_, h, _⟩; cases h
  · rintro ⟨_, h, _⟩; cases h

theorem config_read {c : Config} (hc : Ints c) {ms : List (List Char × JVal)} (h : Describes (configFields c) ms) :
    asStruct configNames setConfig (conv (.obj ms)) zeroConfig = .ok c := by
  obtain ⟨x', e, h1, h2, h3⟩ := setAll_members (P := FieldIs c) (I := Half c) (holds := FieldHolds c) distinct_config (set := setConfig) setConfig_null
    (fun x n v _ hx hv => by
      obtain ⟨x', e, g1, g2, g3⟩ := setConfig_holds hc x n v hx hv
      exact ⟨x', e, g1, g2, fun m _ => g3 m⟩)
    ms (describes_names (fs := configFields c) rfl (fun f hf v hv => ⟨f, hf, rfl, hv⟩) h) zeroConfig
    (by simp [Half, zeroConfig])
  have hx : ∀ f ∈ configFields c, FieldIs c f.name x' := by
    intro f hf
    rcases h.2 f hf with g | ⟨m, hm, g1, g2⟩
    · exact absent_is h1 f hf g
    · exact h3 f.name (List.mem_map.mpr ⟨f, hf, rfl⟩ : f.name ∈ (configFields c).map JField.name) ⟨m, hm, g1, fun e => not_null hf (e ▸ g2), f, hf, rfl, g2⟩
  have e1 := (hx (strField "IndexRoot" c.indexRoot) (by simp [configFields])).1 rfl
  have e2 := (hx (intField "SeqLen" c.seqLen) (by simp [configFields])).2.1 rfl
  have e3 := (hx (intField "NumShards" c.numShards) (by simp [configFields])).2.2.1 rfl
  have e4 := (hx (intField "NumShatters" c.numShatters) (by simp [configFields])).2.2.2.1 rfl
  have e5 := (hx (intField "DocFlushRate" c.docFlushRate) (by simp [configFields])).2.2.2.2.1 rfl
  have e6 := (hx (objField "TokenConfig" (tokenFields c.tokenConfig)) (by simp [configFields])).2.2.2.2.2.1 rfl
  have e7 := (hx (objField "BlotConfig" (blotFields c.blotConfig)) (by simp [configFields])).2.2.2.2.2.2 rfl
  rw [conv, asStruct, e]
  cases x'; cases c; simp_all

/-- encoding/json reads every text for a configuration -/
theorem unmarshal_text {c : Config} (hc : Ints c) {t : Bytes} (h : ConfigText c t) : unmarshal t = .ok c := by
  obtain ⟨ms, h1, h2, h3⟩ := h
  simp only [unmarshal, parse_text h1 h2, bind, Except.bind]
  exact config_read hc h3

end Dupi.Json
