import Verif.Proof.Text
import Verif.Proof.Numeral
import Verif.Props.Extract
/-! # What is printed can be read: C59, C60 -/

namespace Dupi.Props
open Spec Cmd

/-! ## C59 -/

/-- what skipping space does to an argument that begins with a visible character: nothing -/
def Skips (skip : Bytes → Option Bytes) : Prop := ∀ b bs, 33 ≤ b → b < 127 → skip (b :: bs) = some (b :: bs)

theorem hexVal_visible {b : UInt8} (h : (hexVal b).isSome) : 33 ≤ b ∧ b < 127 := by
  unfold hexVal at h
  rw [UInt8.le_iff_toNat_le, UInt8.lt_iff_toNat_lt]
  split at h
  · rename_i g; rw [UInt8.le_iff_toNat_le, UInt8.le_iff_toNat_le] at g; simp at g ⊢; omega
  · split at h
    · rename_i g; rw [UInt8.le_iff_toNat_le, UInt8.le_iff_toNat_le] at g; simp at g ⊢; omega
    · split at h
      · rename_i g; rw [UInt8.le_iff_toNat_le, UInt8.le_iff_toNat_le] at g; simp at g ⊢; omega
      · cases h

/-- hexadecimal digits, followed by something else or nothing -/
theorem scan_digits {skip : Bytes → Option Bytes} (hs : Skips skip) {l junk : Bytes} (hl : ∀ b ∈ l, (hexVal b).isSome) (hne : l ≠ [])
    (hj : ∀ b ∈ junk.head?, hexVal b = none) :
    scanHex skip (l ++ junk) = if hexValue l < 2 ^ 32 then some (UInt32.ofNat (hexValue l)) else none := by
  have ht : (l ++ junk).takeWhile (fun b => (hexVal b).isSome) = l := by
    rw [List.takeWhile_append_of_pos hl]
    cases junk with
    | nil => simp
    | cons b junk =>
      rw [List.takeWhile_cons_of_neg (by simp [hj b (by simp)]), List.append_nil]
  cases l with
  | nil => exact absurd rfl hne
  | cons b l =>
    obtain ⟨g1, g2⟩ := hexVal_visible (hl b (by simp))
    unfold scanHex
    rw [List.cons_append, hs b _ g1 g2]
    simp only [Option.bind_eq_bind, Option.bind_some]
    rw [← List.cons_append, ht, if_neg hne]

/-- **C59.**  The number of a blot as blot and extract print it is read by unblot as the number of that blot, -/
theorem C59_printed_partial {skip : Bytes → Option Bytes} (hs : Skips skip) (b : UInt32) : scanHex skip (hex b) = some b := by
  have h1 : ∀ x ∈ hex b, (hexVal x).isSome := by
    intro x hx
    obtain ⟨d, rfl⟩ := digits_mem (by omega) _ x hx
    rw [(digit_val d).1]; rfl
  have h2 := scan_digits hs (junk := []) h1 (digits_ne _) (by simp)
  have h3 : hexValue (hex b) = b.toNat := digits_value (k := 14) (by omega) b.toNat
  rw [List.append_nil, h3, if_pos b.toNat_lt] at h2
  rw [h2]; simp

/-- and any hexadecimal number below 2^32 as that number; larger ones are refused. -/
theorem C59_hex_partial {skip : Bytes → Option Bytes} (hs : Skips skip) {l : Bytes} (hl : ∀ b ∈ l, (hexVal b).isSome) (hne : l ≠ []) :
    scanHex skip l = if hexValue l < 2 ^ 32 then some (UInt32.ofNat (hexValue l)) else none := by
  simpa using scan_digits hs (junk := []) hl hne (by simp)

/-- **C59 is false**: with "0x" in front, every number is read as 0. -/
theorem C59_false_0x {skip : Bytes → Option Bytes} (hs : Skips skip) (l : Bytes) : scanHex skip (48 :: 120 :: l) = some 0 := by
  have := scan_digits hs (l := [48]) (junk := 120 :: l) (by simp; decide) (by simp) (by simp; decide)
  rw [if_pos (by decide)] at this
  exact this

/-- **C59 is false**: an argument that is no number is not refused if it begins with one. -/
theorem C59_false_junk {skip : Bytes → Option Bytes} (hs : Skips skip) (b : UInt32) (x : UInt8) (hx : hexVal x = none) (l : Bytes) :
    scanHex skip (hex b ++ x :: l) = some b := by
  have h1 : ∀ x ∈ hex b, (hexVal x).isSome := by
    intro x hx
    obtain ⟨d, rfl⟩ := digits_mem (by omega) _ x hx
    rw [(digit_val d).1]; rfl
  have h2 := scan_digits hs (junk := x :: l) h1 (digits_ne _) (by simpa using hx)
  have h3 : hexValue (hex b) = b.toNat := digits_value (k := 14) (by omega) b.toNat
  rw [h3, if_pos b.toNat_lt] at h2
  rw [h2]; simp

/-- skipping space and tabulators -/
example : Skips (fun l => some (l.dropWhile fun b => b == 32 || b == 9)) := by
  intro b bs h1 h2
  have : (b == 32 || b == 9) = false := by
    rw [Bool.or_eq_false_iff]
    constructor
    · rw [beq_eq_false_iff_ne]; rintro rfl; exact absurd h1 (by decide)
    · rw [beq_eq_false_iff_ne]; rintro rfl; exact absurd h1 (by decide)
  show some _ = _
  rw [List.dropWhile_cons_of_neg (by simp [this])]

/-- 26 is printed as 1a -/
example : hex 26 = [49, 97] := by simp [hex, digits]; decide

/-! ## C60 -/

/-- what the extract command tells about a blot -/
def told (b : Blot) : UInt32 × List (Bytes × UInt32 × UInt32) := (b.blot, b.vis.map fun d => (d.path, d.start, d.stop))

theorem blotLine_eq (b : Blot) : blotLine b = (hex (told b).1 ++ (told b).2.flatMap fun p => 32 :: docPiece p) ++ [10] := by
  unfold blotLine told
  rw [List.flatMap_map]
  rfl

theorem extractText_eq (out : List Blot) :
    extractText out = (out.map told).flatMap fun t => (hex t.1 ++ t.2.flatMap fun p => 32 :: docPiece p) ++ [10] := by
  unfold extractText
  rw [List.flatMap_map]
  congr 1
  funext b
  exact blotLine_eq b

/-- **C60, where it holds.**  If no path has a space or a newline in it, different results of the extract command are printed differently. -/
theorem C60_extract_partial {out out' : List Blot} (h : ∀ b ∈ out, ∀ d ∈ b.vis, 32 ∉ d.path ∧ 10 ∉ d.path)
    (h' : ∀ b ∈ out', ∀ d ∈ b.vis, 32 ∉ d.path ∧ 10 ∉ d.path) (he : extractText out = extractText out') : out.map told = out'.map told := by
  rw [extractText_eq, extractText_eq] at he
  have hp {out : List Blot} (h : ∀ b ∈ out, ∀ d ∈ b.vis, 32 ∉ d.path ∧ 10 ∉ d.path) :
      ∀ t ∈ out.map told, ∀ p ∈ t.2, 32 ∉ p.1 ∧ 10 ∉ p.1 := by
    intro t ht p hp
    obtain ⟨b, hb, rfl⟩ := List.mem_map.mp ht
    obtain ⟨d, hd, rfl⟩ := List.mem_map.mp hp
    exact h b hb d hd
  have hn (p : Bytes × UInt32 × UInt32) (a : UInt8) (ha : a = 32 ∨ a = 10) (hp : a ∉ p.1) : a ∉ docPiece p := by
    unfold docPiece
    have h1 := dec_not p.2.1 a (by rcases ha with rfl | rfl <;> simp)
    have h2 := dec_not p.2.2 a (by rcases ha with rfl | rfl <;> simp)
    have h3 : a ≠ 64 ∧ a ≠ 58 := by rcases ha with rfl | rfl <;> decide
    simp only [List.mem_append, List.mem_cons, not_or]
    exact ⟨hp, h3.1, h1, h3.2, h2⟩
  refine lines_inj (P := fun t : UInt32 × List (Bytes × UInt32 × UInt32) => ∀ p ∈ t.2, 32 ∉ p.1 ∧ 10 ∉ p.1)
    (fun t => hex t.1 ++ t.2.flatMap fun p => 32 :: docPiece p) ?_ ?_ _ _ (hp h) (hp h') he
  · intro t ht hm
    rcases List.mem_append.mp hm with hm | hm
    · exact hex_not _ 10 (by simp) hm
    · obtain ⟨p, hp, hm⟩ := List.mem_flatMap.mp hm
      rcases List.mem_cons.mp hm with hm | hm
      · exact absurd hm (by decide)
      · exact hn p 10 (by simp) (ht p hp).2 hm
  · intro t t' ht ht' e
    obtain ⟨e1, e2⟩ := pieces_inj (P := fun p : Bytes × UInt32 × UInt32 => 32 ∉ p.1) docPiece (fun p hp => hn p 32 (by simp) hp)
      (fun p q _ _ e => docPiece_inj e) _ _ t.2 t'.2 (hex_not _ 32 (by simp)) (hex_not _ 32 (by simp)) (fun p hp => (ht p hp).1)
      (fun p hp => (ht' p hp).1) e
    exact Prod.ext (hex_inj e1) e2

/-- **C60.**  On a line there are: the number of the blot in hexadecimal, then, each after a space, the documents, -/
theorem C60_line_partial (b : Blot) : ∃ t, Numeral 16 b.blot.toNat t ∧ blotLine b = t ++ b.vis.flatMap docText ++ [10] := ⟨_, hex_numeral _, rfl⟩

/-- and of each the path, "@", where it begins, ":" and where it ends, in decimal. -/
theorem C60_doc_partial (d : Doc) : ∃ s t, Numeral 10 d.start.toNat s ∧ Numeral 10 d.stop.toNat t ∧ docText d = [32] ++ d.path ++ [64] ++ s ++ [58] ++ t :=
  ⟨_, _, dec_numeral _, dec_numeral _, by simp [docText]⟩

/-- **C60 is false** in general: two documents on a line are printed as one document with a path that has a space in it. -/
theorem C60_false_space (b : UInt32) (d e : Doc) (rest : List Doc) : extractText [⟨b, some ⟨d :: e :: rest, []⟩⟩] =
    extractText [⟨b, some ⟨⟨docPiece (d.path, d.start, d.stop) ++ 32 :: e.path, e.start, e.stop, none⟩ :: rest, []⟩⟩] := by
  simp [extractText, blotLine, Blot.vis, docText, docPiece]

/-- **C60 is false**: so are two lines, with a newline. -/
theorem C60_false_newline (b b' : UInt32) (d d' e : Doc) (rest : List Doc) :
    extractText [⟨b, some ⟨[d, d'], []⟩⟩, ⟨b', some ⟨e :: rest, []⟩⟩] =
    extractText [⟨b, some ⟨d :: ⟨docPiece (d'.path, d'.start, d'.stop) ++ 10 :: (hex b' ++ 32 :: e.path), e.start, e.stop, none⟩ :: rest, []⟩⟩] := by
  simp [extractText, blotLine, Blot.vis, docText, docPiece]

/-- two documents in a blot: "1a p@0:3 q@0:3" -/
example : extractText [⟨26, some ⟨[⟨[112], 0, 3, none⟩, ⟨[113], 0, 3, none⟩], []⟩⟩] =
    [49, 97, 32, 112, 64, 48, 58, 51, 32, 113, 64, 48, 58, 51, 10] := by
  simp [extractText, blotLine, Blot.vis, docText, hex, dec, digits]; decide

end Dupi.Props
