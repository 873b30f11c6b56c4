import Verif.Proof.Blotter
import Verif.Proof.Words
/-! # C11, C12: what a blot is -/

namespace Dupi.Props
open Dupi.Spec

/-- the words a blot is made of: from the last word fed, back `k` words at a time, at most `n` -/
def selected {α : Type} (n k : Nat) (ws : List α) : List α :=
  (List.range n).filterMap fun t => ws.reverse[t * k]?

private theorem filterMap_window (u : Uni) (n k : Nat) (ws : List Bytes) :
    windowXor n k ((ws.map (wordHash u)).reverse) = xorAll ((selected n k ws).map (wordHash u)) := by
  rw [windowXor, selected, List.map_filterMap]
  congr 2
  funext t
  rw [← List.map_reverse, List.getElem?_map]

/-- **C11.** The hash of a word is FNV-1. -/
theorem C11_hash (b : Bytes) : (fnv32 b).toNat = fnv1 (b.map UInt8.toNat) := fnv32_toNat b

/-- **C11.** The blot returned after feeding words `ws ++ [w]` to a fresh blotter is the xor of the
FNV-1 hashes of the lower-cased words selected from them: the last `SeqLen` ones taken at steps of
the interleaving (1 for a circular blotter), all of them if there are fewer.  Here words are any
bytes, and lower case is what `bytes.ToLower` makes of them (see `C11_blot` for text). -/
theorem C11_blot_bytes (u : Uni) (cfg : BlotConfig) (hs : 0 < cfg.seqLen) (hi : 0 < cfg.interleave)
    (ws : List Bytes) (w : Bytes) :
    ∃ b rs b' r b'', Blotter.fromConfig cfg = .ok b ∧ b.blots u ws = .ok (rs, b') ∧
      b'.blot u w = .ok (r, b'') ∧
      r = xorAll ((selected cfg.seqLen.toNat cfg.interleave.toNat (ws ++ [w])).map
        fun x => UInt32.ofNat (fnv1 ((bytesToLower u x).map UInt8.toNat))) := by
  simp only [← C11_hash, UInt32.ofNat_toNat]
  obtain ⟨b, h1, h2⟩ := fromConfig_repL cfg hs hi
  obtain ⟨rs, b', h3, h4, _⟩ := h2.blots (u := u) ws
  obtain ⟨b'', h5, _⟩ := h4.blot (wordHash u w)
  refine ⟨b, rs, b', _, b'', h1, h3, h5, ?_⟩
  rw [show (wordHash u w :: ((ws.map (wordHash u)).reverse ++ [])) = ((ws ++ [w]).map (wordHash u)).reverse by simp,
    filterMap_window]
  rfl

theorem selected_map {α β : Type} (f : α → β) (n k : Nat) (ws : List α) : selected n k (ws.map f) = (selected n k ws).map f := by
  unfold selected
  rw [List.map_filterMap]
  congr 1
  funext t
  rw [← List.map_reverse, List.getElem?_map]

/-- **C11**, for words of characters: the blot after `ws ++ [w]` is the xor of the FNV-1 hashes of
the UTF-8 encodings of the lower-cased words selected. -/
theorem C11_blot (u : Uni) (cfg : BlotConfig) (hs : 0 < cfg.seqLen) (hi : 0 < cfg.interleave)
    (ws : List (List Char)) (w : List Char) :
    ∃ b rs b' r b'', Blotter.fromConfig cfg = .ok b ∧ b.blots u (ws.map utf8) = .ok (rs, b') ∧
      b'.blot u (utf8 w) = .ok (r, b'') ∧
      r = xorAll ((selected cfg.seqLen.toNat cfg.interleave.toNat (ws ++ [w])).map (hashOf u)) := by
  obtain ⟨b, rs, b', r, b'', h1, h2, h3, h4⟩ := C11_blot_bytes u cfg hs hi (ws.map utf8) (utf8 w)
  refine ⟨b, rs, b', r, b'', h1, h2, h3, ?_⟩
  rw [h4, show ws.map utf8 ++ [utf8 w] = (ws ++ [w]).map utf8 by simp, selected_map, List.map_map]
  congr 2
  funext x
  simp only [Function.comp_apply, bytesToLower_utf8]; rfl

/-- with interleaving 1 the selected words are simply the last `n` -/
theorem C11_selected_one {α : Type} (n : Nat) (ws : List α) :
    selected n 1 ws = (ws.reverse.take n) := by
  unfold selected
  induction n with
  | zero => simp
  | succ n ih =>
    rw [List.range_succ, List.filterMap_append, ih, List.take_add_one]
    cases h : ws.reverse[n]? <;> simp [h]

/-- **C12.** Changing the ASCII case of words fed to a blotter (in any state) changes none of the
blots it returns, nor its later behaviour. -/
theorem C12_case (u : Uni) (b : Blotter) (ws ws' : List Bytes)
    (h : ws.map (·.map asciiLower) = ws'.map (·.map asciiLower)) : b.blots u ws = b.blots u ws' := by
  rw [← lowerByte_eq] at h
  induction ws generalizing b ws' with
  | nil => cases ws' with
    | nil => rfl
    | cons => simp at h
  | cons w ws ih => cases ws' with
    | nil => simp at h
    | cons w' ws' =>
      simp only [List.map_cons, List.cons.injEq] at h
      simp only [Blotter.blots, Blotter.blot, wordHash_case u h.1]
      cases b.blotHash (wordHash u w') with
      | error e => rfl
      | ok r => simp only [bind, Except.bind]; rw [ih _ _ h.2]

/-- **C12** for all letters: words of characters with equal lower case (according to the Unicode
tables) give the same blots. -/
theorem C12_case_unicode (u : Uni) (b : Blotter) (ws ws' : List (List Char))
    (h : ws.map (·.map (lowerChar u)) = ws'.map (·.map (lowerChar u))) : b.blots u (ws.map utf8) = b.blots u (ws'.map utf8) := by
  induction ws generalizing b ws' with
  | nil => cases ws' with
    | nil => rfl
    | cons => simp at h
  | cons w ws ih => cases ws' with
    | nil => simp at h
    | cons w' ws' =>
      simp only [List.map_cons, List.cons.injEq] at h
      have hw : wordHash u (utf8 w) = wordHash u (utf8 w') := by rw [wordHash_utf8, wordHash_utf8, hashOf, hashOf, h.1]
      simp only [List.map_cons, Blotter.blots, Blotter.blot, hw]
      cases b.blotHash (wordHash u (utf8 w')) with
      | error e => rfl
      | ok r => simp only [bind, Except.bind]; rw [ih _ _ h.2]

/-- **C12.** Two sequences of words whose selected windows are permutations of each other up to
ASCII case end in the same blot. -/
theorem C12_perm (u : Uni) (cfg : BlotConfig) (hs : 0 < cfg.seqLen)
    (hi : 0 < cfg.interleave) (ws ws' : List Bytes) (w w' : Bytes)
    (hp : ((selected cfg.seqLen.toNat cfg.interleave.toNat (ws ++ [w])).map (·.map asciiLower)).Perm
      ((selected cfg.seqLen.toNat cfg.interleave.toNat (ws' ++ [w'])).map (·.map asciiLower))) :
    ∃ b rs c rs' c' r d d', Blotter.fromConfig cfg = .ok b ∧
      b.blots u ws = .ok (rs, c) ∧ b.blots u ws' = .ok (rs', c') ∧
      c.blot u w = .ok (r, d) ∧ c'.blot u w' = .ok (r, d') := by
  rw [← lowerByte_eq] at hp
  obtain ⟨b, rs, c, r, d, h1, h2, h3, h4⟩ := C11_blot_bytes u cfg hs hi ws w
  obtain ⟨b', rs', c', r', d', h1', h2', h3', h4'⟩ := C11_blot_bytes u cfg hs hi ws' w'
  rw [h1] at h1'; cases h1'
  have : r = r' := by
    rw [h4, h4']
    apply xorAll_perm
    have hp' := hp.map (wordHash u)
    simp only [List.map_map, Function.comp_def, wordHash_low u] at hp'
    simp only [← C11_hash, UInt32.ofNat_toNat]
    exact hp'
  subst this
  exact ⟨b, rs, c, rs', c', r, d, d', h1, h2, h2', h3, h3'⟩

-- non-vacuity: window of 2, "a" "b" "c" vs "x" "C" "b"
example : ((selected 2 1 ([[97], [98]] ++ [[99]])).map (·.map asciiLower)).Perm
    ((selected 2 1 ([[120], [67]] ++ [[98]])).map (·.map asciiLower)) := by
  decide +kernel
example : Blotter.fromConfig ⟨2, 1⟩ = .ok (.circ ⟨[0, 0], 0, 0⟩) := by decide +kernel
/-- FNV-1 of "a" is 0x050c5d7e -/
example : fnv32 [97] = 0x050c5d7e := by decide +kernel
example : selected 2 3 [[1], [2], [3], [4], [5]] = [[5], [2]] := by decide +kernel

example : [['A'], ['b', 'C']].map (·.map (lowerChar asciiUni)) = [['a'], ['B', 'c']].map (·.map (lowerChar asciiUni)) := by decide +kernel
example : hashOf asciiUni ['A'] = 0x050c5d7e := by decide +kernel

end Dupi.Props
