import Verif.Model.Dmd
import Verif.Proof.Varint
/-! Invariant of the document metadata writer: file ++ buffer = zero record followed by the history. -/

namespace Dupi.Dmd

theorem encode_length (x : Fields) : (encode x).length = 12 := by simp [encode, be32]

theorem encodeAll_length (xs : List Fields) : (xs.flatMap encode).length = 12 * xs.length := by
  induction xs with
  | nil => rfl
  | cons x xs ih => simp [encode_length, ih]; omega

/-- `hist` are the records (including the reserved record 0) accepted so far. -/
structure Inv (t : Adder) (file : Option Bytes) (hist : List Fields) : Prop where
  small : hist.length ≤ 2 ^ 32
  nonempty : hist ≠ []
  split : ∃ done, hist = done ++ t.buf ∧ file.getD [] = done.flatMap encode ∧
    t.flushed.toNat = done.length % 2 ^ 32 ∧ (t.buf = [] → file.isSome)

theorem flush_inv {t file hist} (h : Inv t file hist) :
    Inv (flush t file).1 (flush t file).2 hist ∧ (flush t file).1.buf = [] ∧
      (flush t file).2 = some (hist.flatMap encode) := by
  obtain ⟨hs, hne, done, h1, h2, h3, h4⟩ := h
  refine ⟨⟨hs, hne, hist, by simp [flush], ?_, ?_, by simp [flush]⟩, rfl, ?_⟩
  · simp [flush, h2, h1]
  · have hlen := congrArg List.length h1
    simp only [List.length_append] at hlen
    simp only [flush, UInt32.toNat_add, h3, UInt32.toNat_ofNat']
    omega
  · simp [flush, h2, h1]

theorem add_inv {t file hist} (h : Inv t file hist) (x : Fields) (hlen : hist.length < 2 ^ 32) :
    Inv (add t file x).2.1 (add t file x).2.2 (hist ++ [x]) ∧
      (add t file x).1.toNat = hist.length := by
  have key : ∀ t file, Inv t file hist →
      Inv { t with buf := t.buf ++ [x] } file (hist ++ [x]) ∧
      (UInt32.ofNat t.buf.length + t.flushed).toNat = hist.length := by
    intro t file h
    obtain ⟨hs, hne, done, h1, h2, h3, h4⟩ := h
    have hl := congrArg List.length h1
    simp only [List.length_append] at hl
    refine ⟨⟨by simp; omega, by simp, done, by simp [h1], h2, h3, by simp⟩, ?_⟩
    simp only [UInt32.toNat_add, h3, UInt32.toNat_ofNat']
    omega
  unfold add
  split
  rename_i t' file' heq
  split at heq
  · have hf := (flush_inv h).1
    rw [heq] at hf
    exact key t' file' hf
  · cases heq; exact key t file h

theorem adds_inv (xs : List Fields) : ∀ {t file hist}, Inv t file hist →
    hist.length + xs.length ≤ 2 ^ 32 →
    Inv (adds t file xs).2.1 (adds t file xs).2.2 (hist ++ xs) ∧
      (adds t file xs).1.map UInt32.toNat = List.range' hist.length xs.length := by
  induction xs with
  | nil => intro t file hist h _; simpa [adds] using h
  | cons x xs ih =>
    intro t file hist h hlen
    simp only [List.length_cons] at hlen
    obtain ⟨h1, h2⟩ := add_inv h x (by omega)
    obtain ⟨h3, h4⟩ := ih h1 (by simp; omega)
    refine ⟨by simpa [adds] using h3, ?_⟩
    simp only [adds, List.map_cons, h2, h4, List.length_append, List.length_cons, List.length_nil,
      List.range'_succ]

theorem close_inv {t file hist} (h : Inv t file hist) :
    close t file = some (hist.flatMap encode) := by
  unfold close
  split
  · rename_i h0
    obtain ⟨hs, hne, done, h1, h2, h3, h4⟩ := h
    have h0 : t.buf = [] := List.length_eq_zero_iff.mp h0
    have := h4 h0
    cases file with
    | none => simp at this
    | some b => simp only [Option.getD_some] at h2; simp [h2, h1, h0]
  · exact (flush_inv h).2.2

/-- Opening a directory that holds the closed history `hist` (`none` when nothing was ever closed). -/
theorem newAdder_none (fr : Int) (hfr : 1 ≤ fr) :
    ∃ t, newAdder none fr = .ok t ∧ Inv t none [zeroFields] := by
  refine ⟨⟨0, UInt32.ofNat (fr % 2 ^ 32).toNat, [zeroFields]⟩, by
    simp only [newAdder, show ¬ fr < 1 by omega, if_false], ?_⟩
  exact ⟨by simp, by simp, [], by simp, by simp, by simp, by simp⟩

theorem newAdder_some (fr : Int) (hfr : 1 ≤ fr) (hist : List Fields) (hne : hist ≠ [])
    (hlen : hist.length < 2 ^ 32) :
    ∃ t, newAdder (some (hist.flatMap encode)) fr = .ok t ∧
      Inv t (some (hist.flatMap encode)) hist := by
  have hpos : 0 < hist.length := List.length_pos_iff.mpr hne
  have hl : (hist.flatMap encode).length / rcdSize = hist.length := by
    rw [encodeAll_length]; simp [rcdSize]
  have hn0 : UInt32.ofNat hist.length ≠ 0 := by
    intro h
    have := congrArg UInt32.toNat h
    simp only [UInt32.toNat_ofNat', UInt32.toNat_zero] at this
    omega
  refine ⟨⟨UInt32.ofNat hist.length, UInt32.ofNat (fr % 2 ^ 32).toNat, []⟩, by
    simp only [newAdder, hl, hn0, if_false, show ¬ fr < 0 by omega], ?_⟩
  exact ⟨by omega, hne, hist, by simp, by simp, by simp, by simp⟩

theorem lookup_encode (hist : List Fields) (did : UInt32) (h : did.toNat < hist.length) :
    lookup (hist.flatMap encode) did = .ok hist[did.toNat] := by
  have hd : (hist.flatMap encode).drop (did.toNat * rcdSize)
      = (hist.drop did.toNat).flatMap encode := by
    clear h
    generalize did.toNat = n
    induction hist generalizing n with
    | nil => simp
    | cons x xs ih =>
      cases n with
      | zero => simp
      | succ n =>
        have := ih n
        simp only [List.flatMap_cons, List.drop_succ_cons, rcdSize] at this ⊢
        rw [List.drop_append, List.drop_eq_nil_of_le (by rw [encode_length]; omega), encode_length,
          show (n + 1) * 12 - 12 = n * 12 by omega, this, List.nil_append]
  have hsplit : hist.drop did.toNat = hist[did.toNat] :: hist.drop (did.toNat + 1) :=
    List.drop_eq_getElem_cons h
  generalize hist[did.toNat] = x at *
  rw [lookup, hd, hsplit]
  simp only [List.flatMap_cons, readFull, List.length_append, encode_length, rcdSize,
    show 12 ≤ 12 + ((hist.drop (did.toNat + 1)).flatMap encode).length by omega, if_true]
  rw [List.take_append_of_le_length (by rw [encode_length]; omega),
    List.take_of_length_le (by rw [encode_length]; omega)]
  have e0 : encode x = be32 x.fid ++ (be32 x.start ++ be32 x.stop) := by simp [encode]
  have e1 : (encode x).drop 4 = be32 x.start ++ (be32 x.stop ++ []) := by
    rw [e0, List.drop_left' (be32_length _)]; simp
  have e2 : (encode x).drop 8 = be32 x.stop ++ [] := by
    rw [show 8 = 4 + 4 from rfl, ← List.drop_drop, e1, List.drop_left' (be32_length _)]
  simp only [bind, Except.bind, e1, e2, getBE32_be32]
  rw [e0]
  simp [getBE32_be32, pure, Except.pure]

theorem lookup_past (hist : List Fields) (did : UInt32) (h : hist.length ≤ did.toNat) :
    lookup (hist.flatMap encode) did = fail .eof := by
  rw [lookup, List.drop_eq_nil_of_le (by rw [encodeAll_length, rcdSize]; omega)]
  simp [readFull, rcdSize, bind, Except.bind]

end Dupi.Dmd
