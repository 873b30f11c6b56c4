import Verif.Spec.Index
import Verif.Model.Token
import Verif.Proof.Utf8Char
/-! The words of a text, by the model's decoder. -/

namespace Dupi
open Dupi.Spec

theorem fnv32_toNat (b : Bytes) : (fnv32 b).toNat = fnv1 (b.map UInt8.toNat) := by
  have key : ∀ (b : Bytes) (h : UInt32), (b.foldl (fun h c => (h * 16777619) ^^^ c.toUInt32) h).toNat =
      (b.map UInt8.toNat).foldl (fun h c => (h * 16777619 % 2 ^ 32) ^^^ c) h.toNat := by
    intro b
    induction b with
    | nil => intro h; rfl
    | cons c b ih =>
      intro h
      rw [List.foldl_cons, List.map_cons, List.foldl_cons, ih, UInt32.toNat_xor, UInt32.toNat_mul, UInt8.toNat_toUInt32]; rfl
  rw [fnv32, key]; rfl

theorem wordHash_utf8 (u : Uni) (cs : List Char) : wordHash u (utf8 cs) = hashOf u cs := by
  rw [wordHash, bytesToLower_utf8, hashOf, ← fnv32_toNat, UInt32.ofNat_toNat]

theorem hash_words (u : Uni) (dat : Bytes) : (wordChars u dat).map (hashOf u) = (words u dat).map (wordHash u) := by
  rw [words, List.map_map]
  congr 1
  funext w
  exact (wordHash_utf8 u w).symm

theorem runs_map {α β : Type} (g : α → β) (f : β → Bool) (xs : List α) :
    runs f (xs.map g) = (runs (fun x => f (g x)) xs).map fun p => (p.1, p.2.map g) := by
  induction xs with
  | nil => rfl
  | cons x xs ih =>
    rw [List.map_cons, runs, ih, runs]
    cases runs (fun x => f (g x)) xs with
    | nil => rfl
    | cons p gs =>
      obtain ⟨w, l⟩ := p
      simp only [List.map_cons]
      split <;> rfl

theorem isWordRune_runeOf (u : Uni) (c : Char) : Token.isWordRune u (runeOf c) = isWordChar u c := by
  simp [Token.isWordRune, runeOf, isWordChar]

theorem runs_runeOf (u : Uni) (cs : List Char) :
    runs (Token.isWordRune u) (cs.map runeOf) = (runs (isWordChar u) cs).map fun p => (p.1, p.2.map runeOf) := by
  rw [runs_map]
  simp only [isWordRune_runeOf]

/-- the words found by the model's decoder -/
theorem words_eq (u : Uni) (dat : Bytes) : words u dat =
    if utf8Valid dat then
      ((runs (Token.isWordRune u) (decode dat).dropLast).filter (·.1)).map fun g => g.2.flatMap Rune.enc
    else [] := by
  unfold words wordChars
  by_cases hv : utf8Valid dat = true
  · obtain ⟨cs, h1, h2⟩ := utf8Valid_text hv
    rw [if_pos hv, h1, h2, ← List.map_dropLast, runs_runeOf, List.filter_map, List.map_map, List.map_map]
    congr 1
    funext g
    exact (flat_runeOf g.2).symm
  · rw [if_neg hv, (utf8Valid_false_iff dat).mp (by simpa using hv)]; rfl

/-- where the word runs begin, and their text, when the first run begins at byte `p` -/
def placedRunes : Nat → List (Bool × List Rune) → List (Nat × Bytes)
  | _, [] => []
  | p, (w, rs) :: gs =>
    let e := rs.flatMap Rune.enc
    if w then (p, e) :: placedRunes (p + e.length) gs else placedRunes (p + e.length) gs

theorem placed_runeOf (gs : List (Bool × List Char)) : ∀ p,
    placed p gs = placedRunes p (gs.map fun g => (g.1, g.2.map runeOf)) := by
  induction gs with
  | nil => intro p; rfl
  | cons g gs ih =>
    obtain ⟨w, cs⟩ := g
    intro p
    simp only [List.map_cons, placed, placedRunes, flat_runeOf, ih]

theorem wordsAt_eq (u : Uni) (dat : Bytes) : wordsAt u dat =
    if utf8Valid dat then placedRunes 0 (runs (Token.isWordRune u) (decode dat).dropLast) else [] := by
  unfold wordsAt
  by_cases hv : utf8Valid dat = true
  · obtain ⟨cs, h1, h2⟩ := utf8Valid_text hv
    rw [if_pos hv, h1, h2, ← List.map_dropLast, runs_runeOf]; exact placed_runeOf _ 0
  · rw [if_neg hv, (utf8Valid_false_iff dat).mp (by simpa using hv)]

theorem blotsOf_eq (u : Uni) (c : Config) (dat : Bytes) :
    blotsOf u c dat = blots c.blotConfig.seqLen.toNat c.blotConfig.interleave.toNat ((words u dat).map (wordHash u)) := by
  rw [blotsOf, hash_words]

theorem words_length (u : Uni) (dat : Bytes) : (words u dat).length = (wordChars u dat).length := by simp [words]

end Dupi
