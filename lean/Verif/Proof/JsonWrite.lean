import Verif.Proof.JsonText
import Verif.Model.JsonOut
import Verif.Spec.Numeral
import Mathlib.Data.List.Forall2
/-! # what encoding/json writes is JSON text -/

namespace Dupi.Json
open Spec

theorem hex4_u00 {n : Nat} (h : n < 256) : Hex4 n [48, 48, hexDigit (n / 16), hexDigit (n % 16)] := by
  refine ⟨_, _, _, _, rfl, 0, 0, n / 16, n % 16, rfl, rfl, ?_, ?_, by omega⟩
  · rw [hexOf_hexVal]; exact hexDigit_val _ (by omega)
  · rw [hexOf_hexVal]; exact hexDigit_val _ (by omega)

theorem char_enc (c : Char) : JChar c (encRune (runeOf c)) := by
  have ofNat (n : Nat) (h : c.toNat = n) : c = Char.ofNat n := by rw [← h, Char.ofNat_toNat]
  unfold encRune runeOf
  simp only
  split
  · rename_i h; rw [ofNat _ h]; exact .short (by decide)
  split
  · rename_i h; rw [ofNat _ h]; exact .short (by decide)
  split
  · rename_i h; rw [ofNat _ h]; exact .short (by decide)
  split
  · rename_i h; rw [ofNat _ h]; exact .short (by decide)
  split
  · rename_i h; rw [ofNat _ h]; exact .short (by decide)
  split
  · rename_i h
    have h' : c.toNat < 256 := by omega
    unfold u00
    rw [ofNat_toNat8 h']
    exact .code (hex4_u00 h')
  split
  · rename_i h
    exact .code (h ▸ ⟨_, _, _, _, rfl, 2, 0, 2, 8, rfl, rfl, rfl, rfl, rfl⟩)
  split
  · rename_i h
    exact .code (h ▸ ⟨_, _, _, _, rfl, 2, 0, 2, 9, rfl, rfl, rfl, rfl, rfl⟩)
  · rename_i h1 h2 _ _ _ h3 _ _
    have := JChar.plain (c := c) (by omega) (by rintro rfl; exact h1 rfl) (by rintro rfl; exact h2 rfl)
    simpa [utf8] using this

theorem decodeRune_none (b : UInt8) (t : Bytes) (h : (decodeRune b t).cp = none) : (decodeRune b t).enc = [b] := by
  unfold decodeRune at h ⊢
  split at h
  · cases h
  rename_i h0
  rw [if_neg h0]
  cases t with
  | nil => rfl
  | cons b1 t =>
    simp only at h ⊢
    split at h
    · cases h
    rename_i h1
    rw [if_neg h1]
    cases t with
    | nil => rfl
    | cons b2 t =>
      simp only at h ⊢
      split at h
      · cases h
      rename_i h2
      rw [if_neg h2]
      cases t with
      | nil => rfl
      | cons b3 t =>
        simp only at h ⊢
        split at h
        · cases h
        rename_i h3
        rw [if_neg h3]

/-- The text of a string is a JSON string of its characters. -/
theorem chars_enc (p : Bytes) : ∃ cs, Repair p cs ∧ JChars cs ((decode p).flatMap encRune) := by
  generalize hn : p.length = n
  induction n using Nat.strongRecOn generalizing p with
  | _ n ih =>
    cases p with
    | nil => rw [decode_nil]; exact ⟨[], .nil, .nil⟩
    | cons b t =>
      rw [decode_cons, List.flatMap_cons]
      obtain ⟨cs, h1, h2⟩ := ih _ (by simp only [List.length_cons] at hn; simp only [List.length_drop]; omega) (t.drop ((decodeRune b t).enc.length - 1)) rfl
      cases hcp : (decodeRune b t).cp with
      | none =>
        refine ⟨Char.ofNat 0xFFFD :: cs, ?_, ?_⟩
        · have he := decodeRune_none b t hcp
          rw [he] at h1
          refine .bad ?_ h1
          rintro c ⟨r, hr⟩
          obtain ⟨b', t', e1, e2⟩ := decodeRune_char c r
          simp only [utf8, List.flatMap_cons, List.flatMap_nil, List.append_nil, e1, List.cons_append] at hr
          injection hr with hb ht
          rw [hb, ht] at e2
          rw [e2] at hcp
          cases hcp
        · refine .cons ?_ h2
          have : encRune (decodeRune b t) = [92, 117, 102, 102, 102, 100] := by unfold encRune; rw [hcp]
          rw [this]
          exact .code ⟨_, _, _, _, rfl, 15, 15, 15, 13, rfl, rfl, rfl, rfl, rfl⟩
      | some x =>
        obtain ⟨c, hc⟩ := rune_char (b := b) (t := t) (by rw [hcp]; rfl)
        refine ⟨c :: cs, ?_, ?_⟩
        · have hf := decode_flat (b :: t)
          rw [decode_cons, List.flatMap_cons, decode_flat] at hf
          rw [← hf, hc]
          rw [hc] at h1
          have := Repair.char (c := c) h1
          simpa [utf8, runeOf] using this
        · refine .cons ?_ h2
          rw [hc]
          exact char_enc c

theorem repair_char {p : Bytes} {cs : List Char} (h : Repair p cs) : ∀ (c : Char) (p' : Bytes), p = utf8 [c] ++ p' → ∃ cs', cs = c :: cs' ∧ Repair p' cs' := by
  intro c p' hp
  have one (c : Char) (r : Bytes) : ∃ b t, utf8 [c] = b :: t ∧ decodeRune b (t ++ r) = runeOf c := by
    obtain ⟨b, t, e1, e2⟩ := decodeRune_char c r
    exact ⟨b, t, by simp [utf8, e1], e2⟩
  cases h with
  | nil =>
    obtain ⟨b, t, e, _⟩ := one c []
    rw [e] at hp
    cases hp
  | @char c' q cs' hq =>
    obtain ⟨b, t, e, e2⟩ := one c p'
    obtain ⟨b', t', e', e2'⟩ := one c' q
    rw [e, e', List.cons_append, List.cons_append] at hp
    injection hp with hb ht
    rw [hb, ht, e2] at e2'
    have hcc : c = c' := by
      have : c.toNat = c'.toNat := by
        injection e2' with h _
        exact Option.some.inj h
      exact Char.toNat_inj.mp this
    subst hcc
    rw [e] at e'
    injection e' with _ htt
    subst htt
    exact ⟨cs', rfl, (List.append_cancel_left ht) ▸ hq⟩
  | bad hb _ => exact absurd ⟨p', hp.symm⟩ (hb c)

/-- a text is not changed -/
theorem repair_text {p : Bytes} {cs : List Char} (h : Repair p cs) {cs' : List Char} (hp : p = utf8 cs') : cs = cs' := by
  induction cs' generalizing p cs with
  | nil =>
    subst hp
    cases h' : cs with
    | nil => rfl
    | cons c cs =>
      exfalso
      rw [h'] at h
      have hl : (utf8 []) = [] := rfl
      rw [hl] at h
      generalize hq : ([] : Bytes) = q at h
      cases h with
      | char _ =>
        have : utf8 [c] = [] := (List.append_eq_nil_iff.mp hq.symm).1
        simp [utf8] at this
      | bad _ _ => cases hq
  | cons c cs' ih =>
    obtain ⟨cs2, rfl, h2⟩ := repair_char h c (utf8 cs') (by rw [hp]; simp [utf8])
    rw [ih h2 rfl]

theorem str_text (p : Bytes) : ∃ cs, Repair p cs ∧ JText (.str cs) (encStr p) := by
  obtain ⟨cs, h1, h2⟩ := chars_enc p
  exact ⟨cs, h1, .str h2⟩

theorem toList_loop (bs : ByteArray) : ∀ (k i : Nat) (r : List UInt8), bs.size - i = k → ByteArray.toList.loop bs i r = r.reverse ++ bs.data.toList.drop i := by
  intro k
  induction k with
  | zero =>
    intro i r h
    have hs : bs.data.toList.length = bs.size := by simp
    rw [ByteArray.toList.loop, if_neg (by omega), List.drop_eq_nil_of_le (by omega), List.append_nil]
  | succ k ih =>
    intro i r h
    have hs : bs.data.toList.length = bs.size := by simp
    have hi : i < bs.data.toList.length := by omega
    rw [ByteArray.toList.loop, if_pos (by omega), ih (i + 1) _ (by omega), List.drop_eq_getElem_cons hi]
    have : bs.get! i = bs.data.toList[i] := by
      show bs.data[i]! = _
      rw [getElem!_pos bs.data i (by simpa using hi)]
      simp
    simp [this]

theorem key_utf8 (k : String) : k.toUTF8.toList = utf8 k.toList := by
  have h1 : k.toUTF8.toList = k.toByteArray.data.toList := by
    show ByteArray.toList.loop k.toByteArray 0 [] = _
    rw [toList_loop _ _ 0 [] rfl]
    simp
  rw [h1, ← String.utf8Encode_toList]
  unfold List.utf8Encode utf8
  simp

theorem key_text (k : String) : JText (.str k.toList) (encStr k.toUTF8.toList) := by
  obtain ⟨cs, h1, h2⟩ := str_text k.toUTF8.toList
  rw [repair_text h1 (key_utf8 k)] at h2
  exact h2

/-! ## numbers -/

theorem isDig_iff (b : UInt8) : isDig b = true ↔ 48 ≤ b.toNat ∧ b.toNat ≤ 57 := by
  simp only [isDig, Bool.and_eq_true, decide_eq_true_eq, UInt8.le_iff_toNat_le]
  rfl

theorem nat_digits (n : Nat) : IsDigits (encNat n) ∧ ((encNat n).head? = some 48 → encNat n = [48]) := by
  obtain ⟨h1, h2, h3, h4⟩ := natDigits_spec (n + 1) n (by omega)
  refine ⟨⟨h1, fun b hb => (isDig_iff b).mp (h2 b hb)⟩, fun h => ?_⟩
  by_cases h0 : n = 0
  · subst h0; rfl
  · exact absurd h (h3 h0)

theorem digitsVal_fold (t : Bytes) : ∀ a n, digitsVal a t = some n → t.foldl (fun a b => 10 * a + (digitVal b).getD 0) a = n := by
  induction t with
  | nil => intro a n h; exact Option.some.inj h
  | cons b t ih =>
    intro a n h
    rw [digitsVal] at h
    split at h
    · rename_i hb
      rw [isDig_iff] at hb
      rw [List.foldl_cons]
      refine ih _ _ ?_
      rw [digitVal, if_pos hb]
      rw [← h]
      congr 1
      simp only [Option.getD_some]
      omega
    · cases h

theorem nat_numeral (n : Nat) : Numeral 10 n (encNat n) := by
  obtain ⟨⟨h1, h2⟩, h3⟩ := nat_digits n
  refine ⟨h1, fun b hb => ?_, digitsVal_fold _ _ _ (digitsVal_natDigits _ _ (by omega)), h3⟩
  have := h2 b hb
  exact ⟨b.toNat - 48, by omega, by rw [digitVal, if_pos this]⟩

theorem nat_text (n : Nat) : JText (.num (encNat n)) (encNat n) :=
  .num ⟨[], encNat n, [], [], by simp, .inl rfl, (nat_digits n).1, (nat_digits n).2, .inl rfl, .inl rfl⟩

theorem numeral_number {n : Nat} {t : Bytes} (h : Numeral 10 n t) : JNumber t := by
  obtain ⟨h1, h2, _, h4⟩ := h
  refine ⟨[], t, [], [], by simp, .inl rfl, ⟨h1, fun b hb => ?_⟩, h4, .inl rfl, .inl rfl⟩
  obtain ⟨v, hv, hd⟩ := h2 b hb
  unfold digitVal at hd
  split at hd
  · assumption
  · split at hd
    · injection hd; omega
    · cases hd

/-! ## arrays and objects -/

theorem blank_nl (n : Nat) : Blank (nl n) := by
  intro b hb
  simp only [nl, List.mem_cons, List.mem_replicate] at hb
  rcases hb with rfl | ⟨_, rfl⟩ <;> simp

theorem blank_nil : Blank [] := by intro b hb; cases hb

theorem elems_text (n m : Nat) : ∀ (vs : List JVal) (ts : List Bytes), List.Forall₂ JText vs ts → vs ≠ [] →
    JElems vs (nl n ++ ((ts.intersperse (44 :: nl n)).flatten ++ nl m)) := by
  intro vs ts h
  induction h with
  | nil => intro h; exact absurd rfl h
  | @cons v t vs ts h1 h2 ih =>
    intro _
    cases h2 with
    | nil => simpa using JElemsOf.one (blank_nl n) h1 (blank_nl m)
    | @cons v' t' vs' ts' h3 h4 =>
      have := JElemsOf.cons (blank_nl n) h1 blank_nil (ih (by simp))
      simpa using this

theorem array_text (n : Nat) {vs : List JVal} {ts : List Bytes} (h : List.Forall₂ JText vs ts) : JText (.arr vs) (array n ts) := by
  cases h with
  | nil => exact .arr0 (w := []) blank_nil
  | cons h1 h2 =>
    have := JTextOf.arr (elems_text (n + 1) n _ _ (.cons h1 h2) (by simp))
    simpa [array] using this

/-- the text of a member -/
def MemText (m : List Char × JVal) (t : Bytes) : Prop := ∃ tk tv, JText (.str m.1) tk ∧ JText m.2 tv ∧ t = tk ++ [58, 32] ++ tv

theorem member_text (k : String) {v : JVal} {t : Bytes} (h : JText v t) : MemText (k.toList, v) (member k t) := ⟨_, _, key_text k, h, rfl⟩

theorem members_text (n m : Nat) : ∀ (ms : List (List Char × JVal)) (ts : List Bytes), List.Forall₂ MemText ms ts → ms ≠ [] →
    JMembers ms (nl n ++ ((ts.intersperse (44 :: nl n)).flatten ++ nl m)) := by
  intro vs ts h
  have hb : Blank [32] := by intro b hb; simp at hb; simp [hb]
  induction h with
  | nil => intro h; exact absurd rfl h
  | @cons v t vs ts h1 h2 ih =>
    intro _
    obtain ⟨tk, tv, g1, g2, rfl⟩ := h1
    cases h2 with
    | nil => simpa using JMembersOf.one (blank_nl n) g1 blank_nil hb g2 (blank_nl m)
    | @cons v' t' vs' ts' h3 h4 =>
      have := JMembersOf.cons (blank_nl n) g1 blank_nil hb g2 blank_nil (ih (by simp))
      simpa using this

theorem object_text (n : Nat) {ms : List (List Char × JVal)} {ts : List Bytes} (h : List.Forall₂ MemText ms ts) (h0 : ms ≠ []) : JText (.obj ms) (object n ts) := by
  have := JTextOf.obj (members_text (n + 1) n _ _ h h0)
  simpa [object] using this

end Dupi.Json
