import Verif.Props.Noisy
import Verif.Props.Blotter
/-! # C88: which windows have the same blot -/

namespace Dupi.Props
open Spec

/-- a list in which everything occurs an even number of times has no blot of its own -/
theorem xorAll_even {α : Type} [BEq α] [LawfulBEq α] (h : α → UInt32) : ∀ (n : Nat) (l : List α), l.length ≤ n → (∀ a, l.count a % 2 = 0) →
    xorAll (l.map h) = 0
  | _, [], _, _ => rfl
  | 0, _ :: _, hn, _ => by simp at hn
  | n + 1, a :: l, hn, he => by
    have hin : a ∈ l := by
      have := he a
      rw [List.count_cons_self] at this
      exact List.count_pos_iff.mp (by omega)
    have hp := List.perm_cons_erase hin
    have hrest : xorAll ((l.erase a).map h) = 0 := by
      refine xorAll_even h n (l.erase a) (by rw [List.length_erase_of_mem hin]; simp at hn; omega) fun b => ?_
      have := he b
      rw [List.count_cons, hp.count_eq b, List.count_cons] at this
      by_cases e : a = b
      · simp [e] at this ⊢; omega
      · simp [e] at this ⊢; omega
    rw [xorAll_perm ((hp.cons a).map h)]
    simp only [List.map_cons]
    rw [xorAll, List.foldr_cons, List.foldr_cons, ← UInt32.xor_assoc, UInt32.xor_self, UInt32.zero_xor]
    exact hrest

/-- only whether a word occurs an odd number of times matters -/
theorem xorAll_parity {α : Type} [BEq α] [LawfulBEq α] (h : α → UInt32) (l1 l2 : List α) (he : ∀ a, l1.count a % 2 = l2.count a % 2) :
    xorAll (l1.map h) = xorAll (l2.map h) := by
  have e : xorAll ((l1 ++ l2).map h) = 0 := xorAll_even h _ _ (Nat.le_refl _) fun a => by
    have := he a
    rw [List.count_append]; omega
  rw [List.map_append, xorAll_append] at e
  exact UInt32.xor_eq_zero_iff.mp e

/-- what happens to a word when one is looked for another: the words up to case -/
def lowered (u : Uni) (ws : List (List Char)) : List (List Char) := ws.map (List.map (lowerChar u))

/-- FNV-1 from a given state -/
def fnvFrom (h : UInt32) (b : Bytes) : UInt32 := b.foldl (fun h c => (h * 16777619) ^^^ c.toUInt32) h

theorem xor_cancel {a b : UInt32} (c : UInt32) (h : a ^^^ c = b ^^^ c) : a = b := by
  have e := congrArg (· ^^^ c) h
  simpa only [UInt32.xor_assoc, UInt32.xor_self, UInt32.xor_zero] using e

theorem prime_inj {a b : UInt32} (h : a * 16777619 = b * 16777619) : a = b := by
  have e := congrArg (· * (899433627 : UInt32)) h
  simp only [UInt32.mul_assoc] at e
  rw [show (16777619 : UInt32) * 899433627 = 1 by decide, UInt32.mul_one, UInt32.mul_one] at e
  exact e

theorem fnvFrom_inj (s : Bytes) : ∀ {g h : UInt32}, fnvFrom g s = fnvFrom h s → g = h := by
  induction s with
  | nil => intro g h e; exact e
  | cons c s ih =>
    intro g h e
    have e := ih (show fnvFrom ((g * 16777619) ^^^ c.toUInt32) s = fnvFrom ((h * 16777619) ^^^ c.toUInt32) s from e)
    exact prime_inj (xor_cancel _ e)

theorem fnv32_append (p s : Bytes) : fnv32 (p ++ s) = fnvFrom (fnv32 p) s := by simp [fnv32, fnvFrom, List.foldl_append]

theorem fnv32_one (p s : Bytes) (a b : UInt8) (hab : a ≠ b) : fnv32 (p ++ a :: s) ≠ fnv32 (p ++ b :: s) := by
  intro e
  rw [fnv32_append, fnv32_append] at e
  have e := fnvFrom_inj s (show fnvFrom ((fnv32 p * 16777619) ^^^ a.toUInt32) s = fnvFrom ((fnv32 p * 16777619) ^^^ b.toUInt32) s from e)
  rw [UInt32.xor_comm, UInt32.xor_comm _ b.toUInt32] at e
  have e := xor_cancel _ e
  exact hab (by simpa using congrArg UInt32.toUInt8 e)

theorem hashOf_fnv (u : Uni) (w : List Char) : hashOf u w = fnv32 (utf8 (w.map (lowerChar u))) := by
  unfold hashOf
  rw [← C11_hash, UInt32.ofNat_toNat]

/-- the blot of some words -/
def blotOfWords (u : Uni) (ws : List (List Char)) : UInt32 := xorAll (ws.map (hashOf u))

theorem blotOfWords_lowered (u : Uni) (ws : List (List Char)) : blotOfWords u ws = xorAll ((lowered u ws).map fun w => fnv32 (utf8 w)) := by
  unfold blotOfWords lowered
  rw [List.map_map]
  congr 2
  funext w
  exact hashOf_fnv u w

/-- two words which differ in one letter or digit (of ASCII) and only there, followed by `s` -/
def OneLetter (s v w : List Char) : Prop := ∃ p a b, v = p ++ a :: s ∧ w = p ++ b :: s ∧ a ≠ b ∧ a.toNat < 128 ∧ b.toNat < 128

theorem encode_ascii {a : Char} (h : a.toNat < 128) : String.utf8EncodeChar a = [UInt8.ofNat a.toNat] := by
  have : a.val.toNat = a.toNat := rfl
  unfold String.utf8EncodeChar
  rw [if_pos (by omega)]
  rfl

theorem ascii_byte {a b : Char} (ha : a.toNat < 128) (hb : b.toNat < 128) (h : a ≠ b) : UInt8.ofNat a.toNat ≠ UInt8.ofNat b.toNat := by
  intro e
  have e := congrArg UInt8.toNat e
  rw [UInt8.toNat_ofNat', UInt8.toNat_ofNat', Nat.mod_eq_of_lt (by omega), Nat.mod_eq_of_lt (by omega)] at e
  exact h (Char.toNat_inj.mp e)

theorem OneLetter.bytes {s v w : List Char} (h : OneLetter s v w) : ∃ p a b, utf8 v = p ++ a :: utf8 s ∧ utf8 w = p ++ b :: utf8 s ∧ a ≠ b := by
  obtain ⟨p, a, b, rfl, rfl, hab, ha, hb⟩ := h
  refine ⟨utf8 p, UInt8.ofNat a.toNat, UInt8.ofNat b.toNat, ?_, ?_, ascii_byte ha hb hab⟩
  · simp [utf8, encode_ascii ha]
  · simp [utf8, encode_ascii hb]

theorem xorAll_cons (a : UInt32) (l : List UInt32) : xorAll (a :: l) = a ^^^ xorAll l := rfl

/-- **C88.**  Two windows with the same words, up to case and order, but for one word, which differs in a single letter or digit (of
ASCII), have different blots. -/
theorem C88_letter (u : Uni) {ws1 ws2 rest : List (List Char)} {s v w : List Char} (h1 : (lowered u ws1).Perm (v :: rest))
    (h2 : (lowered u ws2).Perm (w :: rest)) (h : OneLetter s v w) : blotOfWords u ws1 ≠ blotOfWords u ws2 := by
  rw [blotOfWords_lowered, blotOfWords_lowered, xorAll_perm (h1.map _), xorAll_perm (h2.map _), List.map_cons, List.map_cons, xorAll_cons,
    xorAll_cons]
  obtain ⟨p, a, b, e1, e2, hab⟩ := h.bytes
  rw [e1, e2]
  intro e
  exact fnv32_one p _ a b hab (xor_cancel _ e)

theorem near_xor (y : UInt32) (a : UInt8) : (y ^^^ a.toUInt32).toNat / 256 = y.toNat / 256 := by
  have e : (y ^^^ a.toUInt32).toNat = y.toNat ^^^ a.toNat := by simp
  have h2 : (256 : Nat) = 2 ^ 8 := rfl
  rw [e, h2, ← Nat.shiftRight_eq_div_pow, ← Nat.shiftRight_eq_div_pow, Nat.shiftRight_xor_distrib]
  have : a.toNat >>> 8 = 0 := by rw [Nat.shiftRight_eq_div_pow]; exact Nat.div_eq_of_lt a.toNat_lt
  rw [this, Nat.xor_zero]

/-- **C88.**  If the letter is the last one of its word, the blots are in different buckets: no number of shards makes them one. -/
theorem C88_last (u : Uni) {ws1 ws2 rest : List (List Char)} {v w : List Char} (h1 : (lowered u ws1).Perm (v :: rest))
    (h2 : (lowered u ws2).Perm (w :: rest)) (h : OneLetter [] v w) {n : Nat} (hn : 0 < n) :
    (blotOfWords u ws1).toNat % (n * 65536) ≠ (blotOfWords u ws2).toNat % (n * 65536) := by
  have hne := C88_letter u h1 h2 h
  obtain ⟨p, a, b, e1, e2, hab⟩ := h.bytes
  have key : (blotOfWords u ws1).toNat / 256 = (blotOfWords u ws2).toNat / 256 := by
    rw [blotOfWords_lowered, blotOfWords_lowered, xorAll_perm (h1.map _), xorAll_perm (h2.map _), List.map_cons, List.map_cons, xorAll_cons,
      xorAll_cons, e1, e2, fnv32_append, fnv32_append]
    have : ∀ c : UInt8, fnvFrom (fnv32 p) (c :: utf8 []) ^^^ xorAll (rest.map fun w => fnv32 (utf8 w)) =
        ((fnv32 p * 16777619) ^^^ xorAll (rest.map fun w => fnv32 (utf8 w))) ^^^ c.toUInt32 := by
      intro c
      show ((fnv32 p * 16777619) ^^^ c.toUInt32) ^^^ _ = _
      rw [UInt32.xor_assoc, UInt32.xor_assoc, UInt32.xor_comm c.toUInt32]
    rw [this, this, near_xor, near_xor]
  intro e
  apply hne
  apply UInt32.toNat_inj.mp
  generalize (blotOfWords u ws1).toNat = x at *
  generalize (blotOfWords u ws2).toNat = y at *
  have hN : 65536 ≤ n * 65536 := Nat.le_mul_of_pos_left _ hn
  generalize n * 65536 = N at *
  rcases Nat.le_total x y with hle | hle
  · have hd : N ∣ y - x := Nat.dvd_of_mod_eq_zero (Nat.sub_mod_eq_zero_of_mod_eq e.symm)
    have := Nat.eq_zero_of_dvd_of_lt hd (by omega)
    omega
  · have hd : N ∣ x - y := Nat.dvd_of_mod_eq_zero (Nat.sub_mod_eq_zero_of_mod_eq e)
    have := Nat.eq_zero_of_dvd_of_lt hd (by omega)
    omega

section
variable {u : Uni} {J : CfgCodec} {srt : Sorter} {c : Config} (hU : Usable J c) (hsrt : IsSorter srt)

include hU hsrt

/-- **C88.**  Only the words which occur an odd number of times in a window matter.  If two documents have runs of `SeqLen + 1` words of
which every `k`th words are, up to case, such that each word occurs an even number of times in both or an odd number of times in both, an
unlimited extraction run to its end reports a blot whose documents include both. -/
theorem C88_parity {h : Sessions} {x : Index} {q : QState} (hr : Reading u J srt c h x q) (hf : Fits u c (documents h)) {grow ff fuel dsts rs}
    (hnil : ∀ dst ∈ dsts, ∀ b ∈ dst, b.docs = none) (hff : 2 ^ 32 ≤ ff) (hfuel : 2 ^ 32 + 2 ^ 32 + 2 ^ 32 < fuel)
    (hrs : nextCalls grow x ff fuel q dsts = .ok rs) (he : ∃ r ∈ rs, r.eof = true)
    {A B D : List Document} {s t : Document} (hd : documents h = A ++ s :: B ++ t :: D)
    {p1 w1 r1 p2 w2 r2 : List (List Char)} (h1 : wordChars u s.dat = p1 ++ w1 ++ r1) (h2 : wordChars u t.dat = p2 ++ w2 ++ r2)
    (l1 : w1.length = c.seqLen.toNat + 1) (l2 : w2.length = c.seqLen.toNat + 1)
    (hw : ∀ w, (lowered u (everyKth c.blotConfig.seqLen.toNat c.blotConfig.interleave.toNat w1)).count w % 2 =
      (lowered u (everyKth c.blotConfig.seqLen.toNat c.blotConfig.interleave.toNat w2)).count w % 2) :
    ∃ b ∈ delivered rs, [s.shown, t.shown].Sublist b.vis := by
  refine reported_together hU hsrt hr hf hnil hff hfuel hrs he hd (blot_every hU h1 l1) ?_
  have e : blotOfWords u (everyKth c.blotConfig.seqLen.toNat c.blotConfig.interleave.toNat w1) =
      blotOfWords u (everyKth c.blotConfig.seqLen.toNat c.blotConfig.interleave.toNat w2) := by
    rw [blotOfWords_lowered, blotOfWords_lowered]
    exact xorAll_parity _ _ _ hw
  unfold blotOfWords at e
  rw [e]
  exact blot_every hU h2 l2

omit hU hsrt in
theorem everyKth_replicate {α : Type} (n k : Nat) (w : α) : everyKth n k (List.replicate (n * k + 1) w) = List.replicate n w := by
  unfold everyKth
  have : ∀ i ∈ List.range n, (List.replicate (n * k + 1) w)[(i + 1) * k]? = some w := by
    intro i hi
    have := Nat.mul_le_mul_right k (show i + 1 ≤ n from List.mem_range.mp hi)
    rw [List.getElem?_replicate, if_pos (by omega)]
  rw [filterMap_ext _ (some ∘ fun _ => w) _ this, List.filterMap_eq_map, List.map_const', List.length_range]

/-- **C88 is false as stated.**  If the number of words of a blot is even (it is 10 unless configured otherwise), any two documents in each
of which some word occurs `SeqLen + 1` times one after the other are reported together, even if they have no word in common. -/
theorem C88_false {h : Sessions} {x : Index} {q : QState} (hr : Reading u J srt c h x q) (hf : Fits u c (documents h)) {grow ff fuel dsts rs}
    (heven : c.blotConfig.seqLen.toNat % 2 = 0)
    (hnil : ∀ dst ∈ dsts, ∀ b ∈ dst, b.docs = none) (hff : 2 ^ 32 ≤ ff) (hfuel : 2 ^ 32 + 2 ^ 32 + 2 ^ 32 < fuel)
    (hrs : nextCalls grow x ff fuel q dsts = .ok rs) (he : ∃ r ∈ rs, r.eof = true)
    {A B D : List Document} {s t : Document} (hd : documents h = A ++ s :: B ++ t :: D)
    {p1 r1 p2 r2 : List (List Char)} {v w : List Char} (h1 : wordChars u s.dat = p1 ++ List.replicate (c.seqLen.toNat + 1) v ++ r1)
    (h2 : wordChars u t.dat = p2 ++ List.replicate (c.seqLen.toNat + 1) w ++ r2) :
    ∃ b ∈ delivered rs, [s.shown, t.shown].Sublist b.vis := by
  refine C88_parity hU hsrt hr hf hnil hff hfuel hrs he hd h1 h2 (by simp) (by simp) fun z => ?_
  have hcons := hU.cons
  have hk : c.seqLen.toNat = c.blotConfig.seqLen.toNat * c.blotConfig.interleave.toNat := by
    rw [hcons.prod, Int.toNat_mul (by have := hcons.inter; omega) (by have := hcons.seq; omega), Nat.mul_comm]
  rw [hk, everyKth_replicate, everyKth_replicate]
  unfold lowered
  rw [List.map_replicate, List.map_replicate, List.count_replicate, List.count_replicate]
  split <;> split <;> simp [heven]

end

/-! ## Non-vacuity -/

/-- C88_false is about something: "a a a a a." and "b b b b b." are reported together -/
theorem C88_nonvacuous : ∃ x q, Reading asciiUni ⟨fun _ => [], fun _ => .ok exNConfig⟩ mergeSorter exNConfig
      (exNHistory [97, 32, 97, 32, 97, 32, 97, 32, 97, 46] [98, 32, 98, 32, 98, 32, 98, 32, 98, 46]) x q ∧
    ∃ dsts rs, nextCalls (fun n => n) x (2 ^ 32) (2 ^ 40) q dsts = .ok rs ∧
      ∃ b ∈ delivered rs, [⟨[47, 112], 0, 20, none⟩, ⟨[47, 113], 0, 20, none⟩].Sublist b.vis := by
  have hf : Fits asciiUni exNConfig (documents (exNHistory [97, 32, 97, 32, 97, 32, 97, 32, 97, 46] [98, 32, 98, 32, 98, 32, 98, 32, 98, 46])) :=
    ⟨by decide, by decide +kernel, by decide +kernel⟩
  obtain ⟨x, q, hr⟩ := exNReading hf
  obtain ⟨dsts, rs, h1, h2, h3⟩ := reaches_eof exNUsable mergeSorter_isSorter hr hf (fun n => n) (ff := 2 ^ 32) (fuel := 2 ^ 40) (by decide) (by decide)
  refine ⟨x, q, hr, dsts, rs, h2, ?_⟩
  exact C88_false exNUsable mergeSorter_isSorter hr hf (by decide) h1 (by decide) (by decide) h2 h3 (A := []) (B := []) (D := [])
    (s := ⟨[47, 112], 0, 20, [97, 32, 97, 32, 97, 32, 97, 32, 97, 46]⟩) (t := ⟨[47, 113], 0, 20, [98, 32, 98, 32, 98, 32, 98, 32, 98, 46]⟩)
    rfl (p1 := []) (r1 := []) (p2 := []) (r2 := []) (v := ['a']) (w := ['b']) (by decide +kernel) (by decide +kernel)

/-- C88_letter and C88_last are about something: "not now" and "NOT nor" -/
example : (lowered asciiUni [['n', 'o', 't'], ['n', 'o', 'w']]).Perm (['n', 'o', 'w'] :: [['n', 'o', 't']]) ∧
    (lowered asciiUni [['N', 'O', 'T'], ['n', 'o', 'r']]).Perm (['n', 'o', 'r'] :: [['n', 'o', 't']]) ∧ OneLetter [] ['n', 'o', 'w'] ['n', 'o', 'r'] :=
  ⟨by decide +kernel, by decide +kernel, ['n', 'o'], 'w', 'r', rfl, rfl, by decide, by decide, by decide⟩

end Dupi.Props
