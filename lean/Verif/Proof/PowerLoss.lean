import Verif.Spec.PowerLoss
import Verif.Proof.JsonExact
import Verif.Proof.AnyDir
/-! # Files after a loss of power -/

namespace Dupi
open Spec

theorem Spec.PageLost.refl (P : Nat) (b : Bytes) : PageLost P b b := ⟨Nat.le_refl _, fun _ => .inl fun _ _ _ => rfl⟩

theorem Spec.PageLost.blank (P : Nat) (b : Bytes) : PageLost P b (blank b) := by
  refine ⟨by simp [Spec.blank], fun _ => .inr fun i _ h => ?_⟩
  simp only [Spec.blank, List.length_replicate] at h ⊢
  rw [List.getElem?_replicate, if_pos h]

theorem Spec.PageLost.cut (P k : Nat) (b : Bytes) : PageLost P b (b.take k) := by
  refine ⟨by rw [List.length_take]; omega, fun _ => .inl fun i _ h => ?_⟩
  rw [List.length_take] at h
  rw [List.getElem?_take, if_pos (by omega)]

theorem Spec.PowerLoss.blank (P : Nat) {d : Dir} {f : File} {b : Bytes} (h : d f = some b) : PowerLoss P d (d.set f (blank b)) := by
  intro g
  simp only [Dir.set]
  split
  · rename_i e; subst e; exact .inr ⟨b, Spec.blank b, h, rfl, Spec.PageLost.blank P b⟩
  · cases hg : d g with
    | none => exact .inl rfl
    | some c => exact .inr ⟨c, c, rfl, rfl, Spec.PageLost.refl P c⟩

theorem Spec.CutFrom.powerLoss (P : Nat) {d d' : Dir} (h : CutFrom d d') : PowerLoss P d d' := by
  intro f
  rcases h f with h | ⟨b, k, h1, h2⟩
  · exact .inl h
  · exact .inr ⟨b, b.take k, h1, h2, Spec.PageLost.cut P k b⟩

/-- a file of which no byte is zero is cut, if anything -/
theorem Spec.PageLost.noZero {P : Nat} {b b' : Bytes} (h : PageLost P b b') (h0 : 0 ∉ b') : b' = b.take b'.length := by
  apply List.ext_getElem?
  intro i
  rw [List.getElem?_take]
  split
  · rename_i hi
    rcases h.2 (i / P) with g | g
    · exact g i rfl hi
    · exact absurd (List.mem_of_getElem? (g i rfl hi)) h0
  · rename_i hi
    rw [List.getElem?_eq_none_iff]; omega

namespace Json

/-! ## A JSON text has no byte 0 -/

theorem blank_nz {w : Bytes} (h : Blank w) : (0 : UInt8) ∉ w := by
  intro hm
  have := h 0 hm
  revert this; decide

theorem hexOf_nz {n : Nat} : hexOf 0 ≠ some n := by
  have : hexOf 0 = none := by decide
  rw [this]; exact nofun

theorem hex4_nz {n : Nat} {t : Bytes} (h : Hex4 n t) : (0 : UInt8) ∉ t := by
  obtain ⟨a, b, c, d, rfl, p, q, r, s, h1, h2, h3, h4, _⟩ := h
  intro hm
  simp only [List.mem_cons, List.not_mem_nil, or_false] at hm
  rcases hm with rfl | rfl | rfl | rfl
  · exact hexOf_nz h1
  · exact hexOf_nz h2
  · exact hexOf_nz h3
  · exact hexOf_nz h4

theorem utf8_nz {c : Char} (h : 0 < c.toNat) : (0 : UInt8) ∉ utf8 [c] := by
  intro hm
  by_cases h1 : c.toNat < 128
  · have := ascii_char (b := UInt8.ofNat c.toNat) (by rw [ofNat_toNat8 (by omega)]; exact h1)
    rw [ofNat_toNat8 (by omega), Char.ofNat_toNat] at this
    rw [this, List.mem_singleton] at hm
    have := congrArg UInt8.toNat hm
    rw [ofNat_toNat8 (by omega)] at this
    change 0 = _ at this
    omega
  · have := char_high c (by omega) _ hm
    revert this; decide

theorem jchar_nz {c : Char} {t : Bytes} (h : JChar c t) : (0 : UInt8) ∉ t := by
  cases h with
  | plain h1 _ _ => exact utf8_nz (by omega)
  | @short b hm =>
    intro h0
    simp only [List.mem_cons, List.not_mem_nil, or_false] at h0
    rcases h0 with h0 | h0
    · exact absurd h0 (by decide)
    · subst h0
      simp [shortEscapes] at hm
  | code h1 => simpa using hex4_nz h1
  | pair h1 h2 _ _ _ _ _ => 
    have := hex4_nz h1
    have := hex4_nz h2
    simp_all

theorem lax_nz {cs : List Char} {t : Bytes} (h : LaxChars cs t) : (0 : UInt8) ∉ t := by
  induction h with
  | nil => simp
  | char h1 _ ih => simp [jchar_nz h1, ih]
  | lone h1 _ _ _ _ ih => simp [hex4_nz h1, ih]
  | bad h1 _ ih =>
    have := bad_high h1
    intro hm
    rcases List.mem_cons.mp hm with rfl | hm
    · revert this; decide
    · exact ih hm

theorem digits_nz {t : Bytes} (h : IsDigits t) : (0 : UInt8) ∉ t := by
  intro hm
  have := (h.2 0 hm).1
  revert this; decide

theorem number_nz {t : Bytes} (h : JNumber t) : (0 : UInt8) ∉ t := by
  obtain ⟨s, i, f, e, rfl, hs, hi, _, hf, he⟩ := h
  have h1 : (0 : UInt8) ∉ s := by rcases hs with rfl | rfl <;> decide
  have h3 : (0 : UInt8) ∉ f := by
    rcases hf with rfl | ⟨d, rfl, hd⟩
    · simp
    · simp [digits_nz hd]
  have h4 : (0 : UInt8) ∉ e := by
    rcases he with rfl | ⟨x, g, d, rfl, hx, hg, hd⟩
    · simp
    · rcases hx with rfl | rfl <;> rcases hg with rfl | rfl | rfl <;> simp [digits_nz hd]
  simp [h1, digits_nz hi, h3, h4]

mutual
theorem text_nz {v : JVal} {t : Bytes} (h : JTextOf LaxChars v t) : (0 : UInt8) ∉ t := by
  cases h with
  | null => decide
  | true => decide
  | false => decide
  | num h => exact number_nz h
  | str h => simp [lax_nz h]
  | arr0 h => simp [blank_nz h]
  | arr h => simp [elems_nz h]
  | obj0 h => simp [blank_nz h]
  | obj h => simp [members_nz h]
theorem elems_nz {vs : List JVal} {t : Bytes} (h : JElemsOf LaxChars vs t) : (0 : UInt8) ∉ t := by
  cases h with
  | one h1 h2 h3 => simp [blank_nz h1, text_nz h2, blank_nz h3]
  | cons h1 h2 h3 h4 => simp [blank_nz h1, text_nz h2, blank_nz h3, elems_nz h4]
theorem members_nz {ms : List (List Char × JVal)} {t : Bytes} (h : JMembersOf LaxChars ms t) : (0 : UInt8) ∉ t := by
  cases h with
  | one h1 h2 h3 h4 h5 h6 => simp [blank_nz h1, text_nz h2, blank_nz h3, blank_nz h4, text_nz h5, blank_nz h6]
  | cons h1 h2 h3 h4 h5 h6 h7 => simp [blank_nz h1, text_nz h2, blank_nz h3, blank_nz h4, text_nz h5, blank_nz h6, members_nz h7]
end

theorem isJson_nz {v : JVal} {t : Bytes} (h : IsJsonOf LaxChars v t) : (0 : UInt8) ∉ t := by
  obtain ⟨w, s, w', rfl, h1, h2, h3⟩ := h
  simp [blank_nz h1, text_nz h2, blank_nz h3]

end Json

/-! ## Heads that are all zero -/

theorem Spec.EntryAs.zeros : EntryAs [0, 0, 0, 0, 0, 0] 0 0 :=
  ⟨[0], [0], [0, 0, 0, 0], 0, 0, rfl, ⟨[], 0, rfl, by decide, by simp, by decide, by decide, by decide⟩, by decide,
    ⟨[], 0, rfl, by decide, by simp, by decide, by decide, by decide⟩, by decide, by decide, rfl⟩

theorem Spec.Entries.zeros (n : Nat) : ∀ m, 6 * n ≤ m → Entries (List.replicate m 0) (List.replicate n (0, 0)) := by
  induction n with
  | zero => intro m _; trivial
  | succ n ih =>
    intro m h
    obtain ⟨k, rfl⟩ : ∃ k, m = 6 + k := ⟨m - 6, by omega⟩
    refine ⟨[0, 0, 0, 0, 0, 0], List.replicate k 0, ?_, Spec.EntryAs.zeros, ih k (by omega)⟩
    rw [← List.replicate_append_replicate]; rfl

/-- an entry has six bytes or more -/
theorem Spec.Entries.long (es : List (Int × Nat)) : ∀ f, Entries f es → 6 * es.length ≤ f.length := by
  induction es with
  | nil => intro f _; simp
  | cons e es ih =>
    rintro f ⟨a, r, rfl, ⟨l, m, t, k, k', rfl, ⟨cs, b, rfl, _⟩, _, ⟨cs', b', rfl, _⟩, _, _, ht⟩, h2⟩
    have := ih r h2
    simp only [List.length_append, List.length_cons, List.length_nil]
    omega

end Dupi
