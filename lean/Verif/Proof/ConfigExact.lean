import Verif.Proof.JsonExact
import Verif.Proof.ConfigJson
import Verif.Spec.ConfigExact
/-! # encoding/json reads a configuration from a text exactly if the text says it -/

namespace Dupi.Json
open Spec

theorem last_nil {α : Type} {P : α → JVal → Prop} {old x : α} : Last P old [] x ↔ x = old := by simp [Last]

theorem last_cons {α : Type} {P : α → JVal → Prop} {old x : α} {v : JVal} {vs : List JVal} : Last P old (v :: vs) x ↔ ∃ y, P y v ∧ Last P y vs x := by
  unfold Last
  cases vs with
  | nil =>
    simp only [List.mem_singleton, forall_eq, List.getLast?_singleton, List.not_mem_nil, false_imp_iff, implies_true, List.getLast?_nil, true_and]
    exact ⟨fun h => ⟨x, h.2, rfl⟩, fun ⟨y, h, e⟩ => ⟨⟨y, h⟩, e ▸ h⟩⟩
  | cons w vs =>
    rw [show (v :: w :: vs).getLast? = (w :: vs).getLast? from List.getLast?_cons_cons]
    constructor
    · rintro ⟨h1, h2⟩
      obtain ⟨y, hy⟩ := h1 v (by simp)
      refine ⟨y, hy, fun u hu => h1 u (List.mem_cons_of_mem _ hu), ?_⟩
      have : (w :: vs).getLast? ≠ none := by simp
      revert this h2
      cases (w :: vs).getLast? with
      | none => exact fun _ g => absurd rfl g
      | some => exact fun h _ => h
    · rintro ⟨y, hy, h1, h2⟩
      refine ⟨fun u hu => ?_, ?_⟩
      · rcases List.mem_cons.mp hu with rfl | hu
        · exact ⟨y, hy⟩
        · exact h1 u hu
      · have : (w :: vs).getLast? ≠ none := by simp
        revert this h2
        cases (w :: vs).getLast? with
        | none => exact fun _ g => absurd rfl g
        | some => exact fun h _ => h

theorem isNull_iff (v : JVal) : isNull v = true ↔ v = .null := by cases v <;> simp [isNull]

theorem given_null (n : String) (k : List Char) (ms : List (List Char × JVal)) : given n ((k, .null) :: ms) = given n ms := by
  simp [given, isNull]

theorem given_other {n : String} {k : List Char} (h : ¬ SameKey n.toList k) (v : JVal) (ms : List (List Char × JVal)) : given n ((k, v) :: ms) = given n ms := by
  have : ¬ (n.toList.map foldChar = k.map foldChar) := h
  simp only [given, List.filter_cons, this, decide_false, Bool.false_and, Bool.false_eq_true, if_false]

theorem given_same {n : String} {k : List Char} (h : SameKey n.toList k) {v : JVal} (hv : v ≠ .null) (ms : List (List Char × JVal)) :
    given n ((k, v) :: ms) = v :: given n ms := by
  have e : n.toList.map foldChar = k.map foldChar := h
  have e' : isNull v = false := by
    cases hb : isNull v with
    | false => rfl
    | true => exact absurd ((isNull_iff v).mp hb) hv
  simp only [given, List.filter_cons, e, e', decide_true, Bool.not_false, Bool.true_and, if_true, List.map_cons]

theorem bind_ok {α β : Type} {x : M α} {f : α → M β} {b : β} : (x.bind f) = .ok b ↔ ∃ a, x = .ok a ∧ f a = .ok b := by
  cases x <;> simp [Except.bind]

theorem setAll_append {α : Type} (names : List String) (set : α → String → Value → M α) (a b : List (Bytes × Value)) (x : α) :
    setAll names set x (a ++ b) = (setAll names set x a).bind fun y => setAll names set y b := by
  induction a generalizing x with
  | nil => rfl
  | cons m a ih =>
    obtain ⟨k, v⟩ := m
    rw [List.cons_append, setAll, setAll]
    cases field names k with
    | none => exact ih x
    | some n =>
      simp only [bind]
      cases set x n v with
      | error e => rfl
      | ok y => exact ih y

theorem convm_append (a b : List (List Char × JVal)) : convm (a ++ b) = convm a ++ convm b := by
  induction a with
  | nil => rfl
  | cons m a ih => obtain ⟨k, v⟩ := m; simp only [List.cons_append, convm, ih]

theorem fold_same (t : Bytes) (h : ∀ b ∈ t, 48 ≤ b.toNat ∧ b.toNat ≤ 57) : ∀ a, t.foldl (fun a b => 10 * a + (digitVal b).getD 0) a = t.foldl (fun a b => 10 * a + (b.toNat - 48)) a := by
  induction t with
  | nil => intro a; rfl
  | cons b t ih =>
    intro a
    rw [List.foldl_cons, List.foldl_cons, ih fun b hb => h b (by simp [hb])]
    rw [digitVal, if_pos (h b (by simp))]
    rfl

theorem digitsVal_iff (t : Bytes) (n : Nat) : digitsVal 0 t = some n ↔ (∀ b ∈ t, 48 ≤ b.toNat ∧ b.toNat ≤ 57) ∧ t.foldl (fun a b => 10 * a + (b.toNat - 48)) 0 = n := by
  have dig : ∀ (t : Bytes) (a n : Nat), digitsVal a t = some n → ∀ b ∈ t, 48 ≤ b.toNat ∧ b.toNat ≤ 57 := by
    intro t
    induction t with
    | nil => intro _ _ _ b hb; cases hb
    | cons x t ih =>
      intro a n h b hb
      rw [digitsVal] at h
      split at h
      · rename_i hx
        rcases List.mem_cons.mp hb with rfl | hb
        · exact (isDig_iff _).mp hx
        · exact ih _ _ h b hb
      · cases h
  constructor
  · intro h
    have hd := dig t 0 n h
    exact ⟨hd, by rw [← fold_same t hd]; exact digitsVal_fold t 0 n h⟩
  · rintro ⟨hd, h⟩
    obtain ⟨m, hm⟩ := digitsVal_some t (fun b hb => ⟨b.toNat - 48, by have := hd b hb; omega, by rw [digitVal, if_pos (hd b hb)]⟩) 0
    rw [hm, ← h, ← fold_same t hd, digitsVal_fold t 0 m hm]

theorem asInt_iff {v : JVal} (hv : v ≠ .null) (old i : Int) : asInt (conv v) old = .ok i ↔ WholeIs i v := by
  cases v with
  | null => exact absurd rfl hv
  | num lit =>
    simp only [conv, asInt, parseInt_iff, WholeIs, JVal.num.injEq]
    constructor
    · rintro ⟨t, n, h1, h2, h3⟩
      obtain ⟨h2, h4⟩ := (digitsVal_iff t n).mp h2
      refine ⟨?_, ?_, n, t, ⟨h1, h2⟩, h4, ?_⟩
      · rcases h3 with ⟨_, _, rfl⟩ | ⟨_, _, rfl⟩ <;> omega
      · rcases h3 with ⟨_, _, rfl⟩ | ⟨_, _, rfl⟩ <;> omega
      · rcases h3 with ⟨h, _, rfl⟩ | ⟨h, _, rfl⟩
        · exact .inl ⟨h, rfl⟩
        · exact .inr ⟨h, rfl⟩
    · rintro ⟨h1, h2, n, t, h3, h4, h5⟩
      refine ⟨t, n, h3.1, (digitsVal_iff t n).mpr ⟨h3.2, h4⟩, ?_⟩
      rcases h5 with ⟨h, rfl⟩ | ⟨h, rfl⟩
      · exact .inl ⟨h, by omega, rfl⟩
      · exact .inr ⟨h, by omega, rfl⟩
  | bool _ => simp [conv, asInt, bad, WholeIs]
  | str _ => simp [conv, asInt, bad, WholeIs]
  | arr _ => simp [conv, asInt, bad, WholeIs]
  | obj _ => simp [conv, asInt, bad, WholeIs]

theorem asStr_iff {v : JVal} (hv : v ≠ .null) (old s : Bytes) : asStr (conv v) old = .ok s ↔ StrIs s v := by
  cases v with
  | null => exact absurd rfl hv
  | str cs => simp [conv, asStr, StrIs, eq_comm]
  | num _ => simp [conv, asStr, bad, StrIs]
  | bool _ => simp [conv, asStr, bad, StrIs]
  | arr _ => simp [conv, asStr, bad, StrIs]
  | obj _ => simp [conv, asStr, bad, StrIs]

/-- the members one after the other, if each case is right -/
theorem setAll_exact {α : Type} {names : List String} (hd : Distinct names) {set : α → String → Value → M α} {F : α → List (List Char × JVal) → α → Prop}
    (h0 : ∀ x y, F x [] y ↔ y = x) (hnull : ∀ x n, set x n .null = .ok x)
    (h1 : ∀ x y k v ms, (∀ n ∈ names, given n ((k, v) :: ms) = given n ms) → (F x ((k, v) :: ms) y ↔ F x ms y))
    (h2 : ∀ x y k v ms n, n ∈ names → v ≠ .null → given n ((k, v) :: ms) = v :: given n ms → (∀ n' ∈ names, n' ≠ n → given n' ((k, v) :: ms) = given n' ms) →
      (F x ((k, v) :: ms) y ↔ ∃ z, set x n (conv v) = .ok z ∧ F z ms y)) :
    ∀ (ms : List (List Char × JVal)) (x y : α), setAll names set x (convm ms) = .ok y ↔ F x ms y
  | [], x, y => by
    rw [h0, convm, setAll]
    exact ⟨fun h => (Except.ok.inj h).symm, fun h => by rw [h]⟩
  | (k, v) :: ms, x, y => by
    have ih := setAll_exact hd h0 hnull h1 h2 ms
    rw [convm, setAll]
    by_cases hv : v = .null
    · subst hv
      rw [h1 x y k .null ms fun n _ => given_null n k ms, ← ih]
      cases field names (utf8 k) with
      | none => exact Iff.rfl
      | some n => simp only [conv, hnull, bind, Except.bind]
    · by_cases hk : ∃ n ∈ names, SameKey n.toList k
      · obtain ⟨n, hn, hk⟩ := hk
        rw [field_same hd hn hk, h2 x y k v ms n hn hv (given_same hk hv ms) fun n' hn' hne => given_other (fun h => hne (hd n' hn' n hn (h.trans hk.symm))) v ms]
        simp only [bind, bind_ok, ih]
      · have hk' : ∀ n ∈ names, ¬ SameKey n.toList k := fun n hn h => hk ⟨n, hn, h⟩
        rw [field_other hk', h1 x y k v ms fun n hn => given_other (hk' n hn) v ms, ← ih]

theorem token_exact (ms : List (List Char × JVal)) (x y : TokenConfig) : setAll ["Name"] setToken x (convm ms) = .ok y ↔ TokenFrom x ms y := by
  refine setAll_exact distinct_token ?_ ?_ ?_ ?_ ms x y
  · intro x y
    cases x; cases y
    simp [TokenFrom, given, last_nil]
  · intro x n
    unfold setToken
    split <;> rfl
  · intro x y k v ms h
    unfold TokenFrom
    rw [h "Name" (by simp)]
  · intro x y k v ms n hn hv h1 _
    rw [List.mem_singleton] at hn
    subst hn
    unfold TokenFrom
    rw [h1, last_cons]
    simp only [setToken, if_true, bind, bind_ok, pure, Except.pure, asStr_iff hv, Except.ok.injEq]
    constructor
    · rintro ⟨s, h1, h2⟩; exact ⟨_, ⟨s, h1, rfl⟩, h2⟩
    · rintro ⟨_, ⟨s, h1, rfl⟩, h2⟩; exact ⟨s, h1, h2⟩

theorem blot_exact (ms : List (List Char × JVal)) (x y : BlotConfig) : setAll ["SeqLen", "Interleave"] setBlot x (convm ms) = .ok y ↔ BlotFrom x ms y := by
  refine setAll_exact distinct_blot ?_ ?_ ?_ ?_ ms x y
  · intro x y
    cases x; cases y
    simp [BlotFrom, given, last_nil]
  · intro x n
    unfold setBlot
    repeat' (first | split | rfl)
  · intro x y k v ms h
    unfold BlotFrom
    rw [h "SeqLen" (by simp), h "Interleave" (by simp)]
  · intro x y k v ms n hn hv h1 h2
    unfold BlotFrom
    simp only [List.mem_cons, List.not_mem_nil, or_false] at hn
    rcases hn with rfl | rfl
    · rw [h1, last_cons, h2 "Interleave" (by simp) (by decide)]
      simp only [setBlot, if_true, bind, bind_ok, pure, Except.pure, asInt_iff hv, Except.ok.injEq]
      constructor
      · rintro ⟨⟨s, h1, h2⟩, h3⟩; exact ⟨_, ⟨s, h1, rfl⟩, h2, h3⟩
      · rintro ⟨_, ⟨s, h1, rfl⟩, h2, h3⟩; exact ⟨⟨s, h1, h2⟩, h3⟩
    · rw [h1, last_cons, h2 "SeqLen" (by simp) (by decide)]
      simp only [setBlot, show ("Interleave" = "SeqLen") = False by simp, if_false, if_true, bind, bind_ok, pure, Except.pure, asInt_iff hv, Except.ok.injEq]
      constructor
      · rintro ⟨h3, s, h1, h2⟩; exact ⟨_, ⟨s, h1, rfl⟩, h3, h2⟩
      · rintro ⟨_, ⟨s, h1, rfl⟩, h3, h2⟩; exact ⟨h3, s, h1, h2⟩

/-- a structure given more than once -/
theorem parts_cons {α : Type} {names : List String} {set : α → String → Value → M α} {F : α → List (List Char × JVal) → α → Prop}
    (hF : ∀ ms x y, setAll names set x (convm ms) = .ok y ↔ F x ms y) {v : JVal} (hv : v ≠ .null) (vs : List JVal) (x y : α) :
    (∃ ms, Parts (v :: vs) ms ∧ F x ms y) ↔ ∃ z, asStruct names set (conv v) x = .ok z ∧ ∃ ms, Parts vs ms ∧ F z ms y := by
  have app (a b : List (List Char × JVal)) (x y : α) : F x (a ++ b) y ↔ ∃ z, F x a z ∧ F z b y := by
    rw [← hF, convm_append, setAll_append, bind_ok]
    simp only [hF]
  constructor
  · rintro ⟨ms, ⟨l, h1, rfl⟩, h2⟩
    cases l with
    | nil => cases h1
    | cons a l =>
      rw [List.map_cons] at h1
      injection h1 with e1 e2
      subst e1
      rw [List.flatten_cons, app] at h2
      obtain ⟨z, h2, h3⟩ := h2
      exact ⟨z, (hF a x z).mpr h2, l.flatten, ⟨l, e2, rfl⟩, h3⟩
  · rintro ⟨z, h1, ms, ⟨l, h2, rfl⟩, h3⟩
    cases v with
    | null => exact absurd rfl hv
    | obj a => exact ⟨_, ⟨a :: l, by rw [h2, List.map_cons], rfl⟩, by rw [List.flatten_cons, app]; exact ⟨z, (hF a x z).mp h1, h3⟩⟩
    | bool _ => cases h1
    | num _ => cases h1
    | str _ => cases h1
    | arr _ => cases h1

theorem parts_nil (ms : List (List Char × JVal)) : Parts [] ms ↔ ms = [] := by
  constructor
  · rintro ⟨l, h1, rfl⟩
    cases l with
    | nil => rfl
    | cons _ _ => cases h1
  · rintro rfl; exact ⟨[], rfl, rfl⟩

theorem config_exact (ms : List (List Char × JVal)) (x y : Config) : setAll configNames setConfig x (convm ms) = .ok y ↔ ConfigFrom x ms y := by
  have m1 : "IndexRoot" ∈ configNames := by decide
  have m2 : "SeqLen" ∈ configNames := by decide
  have m3 : "NumShards" ∈ configNames := by decide
  have m4 : "NumShatters" ∈ configNames := by decide
  have m5 : "DocFlushRate" ∈ configNames := by decide
  have m6 : "TokenConfig" ∈ configNames := by decide
  have m7 : "BlotConfig" ∈ configNames := by decide
  refine setAll_exact distinct_config ?_ setConfig_null ?_ ?_ ms x y
  · intro x y
    obtain ⟨_, _, _, _, _, ⟨_⟩, ⟨_, _⟩⟩ := x; obtain ⟨_, _, _, _, _, ⟨_⟩, ⟨_, _⟩⟩ := y
    simp [ConfigFrom, TokenFrom, BlotFrom, given, last_nil, parts_nil]
  · intro x y k v ms h
    unfold ConfigFrom
    rw [h _ m1, h _ m2, h _ m3, h _ m4, h _ m5, h _ m6, h _ m7]
  · intro x y k v ms n hn hv h1 h2
    unfold ConfigFrom
    simp only [configNames, List.mem_cons, List.not_mem_nil, or_false] at hn
    rcases hn with rfl | rfl | rfl | rfl | rfl | rfl | rfl
    · rw [h1, h2 _ m2 (by decide), h2 _ m3 (by decide), h2 _ m4 (by decide), h2 _ m5 (by decide), h2 _ m6 (by decide), h2 _ m7 (by decide), last_cons]
      unfold setConfig
      rw [if_pos rfl]
      simp only [bind, bind_ok, pure, Except.pure, asStr_iff hv, Except.ok.injEq]
      constructor
      · rintro ⟨⟨s, a, b⟩, h⟩; exact ⟨_, ⟨s, a, rfl⟩, b, h⟩
      · rintro ⟨_, ⟨s, a, rfl⟩, b, h⟩; exact ⟨⟨s, a, b⟩, h⟩
    · rw [h1, h2 _ m1 (by decide), h2 _ m3 (by decide), h2 _ m4 (by decide), h2 _ m5 (by decide), h2 _ m6 (by decide), h2 _ m7 (by decide), last_cons]
      unfold setConfig
      rw [if_neg (by decide), if_pos rfl]
      simp only [bind, bind_ok, pure, Except.pure, asInt_iff hv, Except.ok.injEq]
      constructor
      · rintro ⟨g1, ⟨s, a, b⟩, h⟩; exact ⟨_, ⟨s, a, rfl⟩, g1, b, h⟩
      · rintro ⟨_, ⟨s, a, rfl⟩, g1, b, h⟩; exact ⟨g1, ⟨s, a, b⟩, h⟩
    · rw [h1, h2 _ m1 (by decide), h2 _ m2 (by decide), h2 _ m4 (by decide), h2 _ m5 (by decide), h2 _ m6 (by decide), h2 _ m7 (by decide), last_cons]
      unfold setConfig
      rw [if_neg (by decide), if_neg (by decide), if_pos rfl]
      simp only [bind, bind_ok, pure, Except.pure, asInt_iff hv, Except.ok.injEq]
      constructor
      · rintro ⟨g1, g2, ⟨s, a, b⟩, h⟩; exact ⟨_, ⟨s, a, rfl⟩, g1, g2, b, h⟩
      · rintro ⟨_, ⟨s, a, rfl⟩, g1, g2, b, h⟩; exact ⟨g1, g2, ⟨s, a, b⟩, h⟩
    · rw [h1, h2 _ m1 (by decide), h2 _ m2 (by decide), h2 _ m3 (by decide), h2 _ m5 (by decide), h2 _ m6 (by decide), h2 _ m7 (by decide), last_cons]
      unfold setConfig
      rw [if_neg (by decide), if_neg (by decide), if_neg (by decide), if_pos rfl]
      simp only [bind, bind_ok, pure, Except.pure, asInt_iff hv, Except.ok.injEq]
      constructor
      · rintro ⟨g1, g2, g3, ⟨s, a, b⟩, h⟩; exact ⟨_, ⟨s, a, rfl⟩, g1, g2, g3, b, h⟩
      · rintro ⟨_, ⟨s, a, rfl⟩, g1, g2, g3, b, h⟩; exact ⟨g1, g2, g3, ⟨s, a, b⟩, h⟩
    · rw [h1, h2 _ m1 (by decide), h2 _ m2 (by decide), h2 _ m3 (by decide), h2 _ m4 (by decide), h2 _ m6 (by decide), h2 _ m7 (by decide), last_cons]
      unfold setConfig
      rw [if_neg (by decide), if_neg (by decide), if_neg (by decide), if_neg (by decide), if_pos rfl]
      simp only [bind, bind_ok, pure, Except.pure, asInt_iff hv, Except.ok.injEq]
      constructor
      · rintro ⟨g1, g2, g3, g4, ⟨s, a, b⟩, h⟩; exact ⟨_, ⟨s, a, rfl⟩, g1, g2, g3, g4, b, h⟩
      · rintro ⟨_, ⟨s, a, rfl⟩, g1, g2, g3, g4, b, h⟩; exact ⟨g1, g2, g3, g4, ⟨s, a, b⟩, h⟩
    · rw [h1, h2 _ m1 (by decide), h2 _ m2 (by decide), h2 _ m3 (by decide), h2 _ m4 (by decide), h2 _ m5 (by decide), h2 _ m7 (by decide),
        parts_cons token_exact hv]
      unfold setConfig
      rw [if_neg (by decide), if_neg (by decide), if_neg (by decide), if_neg (by decide), if_neg (by decide), if_pos rfl]
      simp only [bind, bind_ok, pure, Except.pure, Except.ok.injEq]
      constructor
      · rintro ⟨g1, g2, g3, g4, g5, ⟨s, a, b⟩, h⟩; exact ⟨_, ⟨s, a, rfl⟩, g1, g2, g3, g4, g5, b, h⟩
      · rintro ⟨_, ⟨s, a, rfl⟩, g1, g2, g3, g4, g5, b, h⟩; exact ⟨g1, g2, g3, g4, g5, ⟨s, a, b⟩, h⟩
    · rw [h1, h2 _ m1 (by decide), h2 _ m2 (by decide), h2 _ m3 (by decide), h2 _ m4 (by decide), h2 _ m5 (by decide), h2 _ m6 (by decide),
        parts_cons blot_exact hv]
      unfold setConfig
      rw [if_neg (by decide), if_neg (by decide), if_neg (by decide), if_neg (by decide), if_neg (by decide), if_neg (by decide), if_pos rfl]
      simp only [bind, bind_ok, pure, Except.pure, Except.ok.injEq]
      constructor
      · rintro ⟨g1, g2, g3, g4, g5, g6, ⟨s, a, b⟩⟩; exact ⟨_, ⟨s, a, rfl⟩, g1, g2, g3, g4, g5, g6, b⟩
      · rintro ⟨_, ⟨s, a, rfl⟩, g1, g2, g3, g4, g5, g6, b⟩; exact ⟨g1, g2, g3, g4, g5, g6, ⟨s, a, b⟩⟩

/-- encoding/json reads a configuration from a text exactly if the text says it -/
theorem unmarshal_exact (t : Bytes) (c : Config) : codec.dec t = .ok c ↔ Says t c := by
  show unmarshal t = .ok c ↔ _
  have hz : zeroConfig = noConfig := rfl
  unfold unmarshal Says
  simp only [bind, bind_ok, parse_exact]
  constructor
  · rintro ⟨_, ⟨v, h1, h2, rfl⟩, h3⟩
    refine ⟨v, h1, h2, ?_⟩
    cases v with
    | null => exact ⟨[], .inr ⟨rfl, rfl⟩, (config_exact [] _ _).mp h3⟩
    | obj ms => exact ⟨ms, .inl rfl, (config_exact ms _ _).mp h3⟩
    | bool _ => cases h3
    | num _ => cases h3
    | str _ => cases h3
    | arr _ => cases h3
  · rintro ⟨v, h1, h2, ms, hv, h3⟩
    refine ⟨_, ⟨v, h1, h2, rfl⟩, ?_⟩
    rcases hv with rfl | ⟨rfl, rfl⟩
    · exact (config_exact ms _ _).mpr h3
    · exact (config_exact [] _ _).mpr h3

end Dupi.Json
