import Verif.Model.Find
import Verif.Proof.Shatter
import Verif.Spec.Index
/-! # Where blots are found in a document -/

namespace Dupi
open Spec

/-- the word at byte `p` of a document starting at `off` -/
def tokAt (off : UInt32) (w : Nat × Bytes) : Tok := ⟨.word, w.2, off + UInt32.ofNat w.1⟩

theorem wordToks_render (off : UInt32) (gs : List (Bool × List Rune)) : ∀ p,
    wordToks (Token.render off p gs) = (placedRunes p gs).map (tokAt off) := by
  induction gs with
  | nil => intro p; rfl
  | cons g gs ih =>
    intro p
    obtain ⟨w, rs⟩ := g
    have := ih (p + (Token.encAll rs).length)
    cases w
    · simp only [Token.render, placedRunes, wordToks, List.filter_cons] at this ⊢
      simpa using this
    · simp only [Token.render, placedRunes, wordToks, List.filter_cons] at this ⊢
      simp only [if_true, decide_true, List.map_cons, this, tokAt]

/-- the Word tokens are the words of the text, at their positions -/
theorem tokenize_wordsAt (u : Uni) (dat : Bytes) (off : UInt32) :
    ∃ toks, Token.tokenize u [] dat off = .ok toks ∧ wordToks toks = (wordsAt u dat).map (tokAt off) := by
  cases hv : utf8Valid dat
  · exact ⟨[], Token.tokenize_invalid u [] dat off hv, by simp [wordsAt_eq, hv, wordToks]⟩
  · refine ⟨_, Token.tokenize_eq u [] dat off hv, ?_⟩
    simp only [List.nil_append, wordToks_render, wordsAt_eq, hv, if_true]

theorem placed_snd (gs : List (Bool × List Rune)) : ∀ p,
    (placedRunes p gs).map Prod.snd = (gs.filter (·.1)).map fun g => g.2.flatMap Rune.enc := by
  induction gs with
  | nil => intro p; rfl
  | cons g gs ih =>
    intro p
    obtain ⟨w, rs⟩ := g
    cases w
    · simp [placedRunes, ih]
    · simp [placedRunes, ih]

theorem wordsAt_snd (u : Uni) (dat : Bytes) : (wordsAt u dat).map Prod.snd = words u dat := by
  rw [wordsAt_eq, words_eq]; split
  · exact placed_snd _ _
  · rfl

/-- words do not overlap, are in order, and are where they are said to be -/
theorem placed_text (gs : List (Bool × List Rune)) (rest : Bytes) : ∀ p,
    (∀ w ∈ placedRunes p gs, p ≤ w.1 ∧ w.1 + w.2.length ≤ p + (Token.encAll (gs.flatMap Prod.snd)).length ∧
      ((Token.encAll (gs.flatMap Prod.snd) ++ rest).drop (w.1 - p)).take w.2.length = w.2) ∧
    (placedRunes p gs).Pairwise (fun a b => a.1 + a.2.length ≤ b.1) := by
  induction gs with
  | nil => intro p; simp [placedRunes]
  | cons g gs ih =>
    intro p
    obtain ⟨w, rs⟩ := g
    obtain ⟨h1, h2⟩ := ih (p + (Token.encAll rs).length)
    have e : Token.encAll (((w, rs) :: gs).flatMap Prod.snd) = Token.encAll rs ++ Token.encAll (gs.flatMap Prod.snd) := by
      simp [Token.encAll]
    have hrest : ∀ w ∈ placedRunes (p + (Token.encAll rs).length) gs, p ≤ w.1 ∧
        w.1 + w.2.length ≤ p + (Token.encAll rs ++ Token.encAll (gs.flatMap Prod.snd)).length ∧
        ((Token.encAll rs ++ Token.encAll (gs.flatMap Prod.snd) ++ rest).drop (w.1 - p)).take w.2.length = w.2 := by
      intro w hw
      obtain ⟨g1, g2, g3⟩ := h1 w hw
      refine ⟨by omega, by rw [List.length_append]; omega, ?_⟩
      rw [List.append_assoc, List.drop_append, List.drop_eq_nil_of_le (by omega), List.nil_append,
        show w.1 - p - (Token.encAll rs).length = w.1 - (p + (Token.encAll rs).length) by omega]
      exact g3
    rw [e]
    cases w
    · simp only [placedRunes, Bool.false_eq_true, if_false]
      exact ⟨hrest, h2⟩
    · simp only [placedRunes, if_true]
      refine ⟨?_, List.pairwise_cons.mpr ⟨fun a ha => (h1 a ha).1, h2⟩⟩
      intro a ha
      rcases List.mem_cons.mp ha with rfl | ha
      · refine ⟨Nat.le_refl _, by simp [Token.encAll], ?_⟩
        simp [Token.encAll]
      · exact hrest a ha

theorem wordsAt_text (u : Uni) (dat : Bytes) :
    (∀ w ∈ wordsAt u dat, w.1 + w.2.length ≤ dat.length ∧ (dat.drop w.1).take w.2.length = w.2) ∧
    (wordsAt u dat).Pairwise (fun a b => a.1 + a.2.length ≤ b.1) := by
  rw [wordsAt_eq]
  split
  · rename_i hv
    have hflat := decode_flat dat
    have hr : (runs (Token.isWordRune u) (decode dat).dropLast).flatMap Prod.snd = (decode dat).dropLast := (isRuns_runs _ _).cover
    obtain ⟨rest, hrest⟩ : ∃ rest, dat = Token.encAll ((runs (Token.isWordRune u) (decode dat).dropLast).flatMap Prod.snd) ++ rest := by
      rw [hr]
      rcases List.eq_nil_or_concat (decode dat) with h | ⟨l, x, h⟩
      · exact ⟨dat, by rw [h]; simp⟩
      · refine ⟨x.enc, ?_⟩
        rw [h] at hflat ⊢
        rw [List.concat_eq_append, List.dropLast_concat]
        rw [List.concat_eq_append] at hflat
        rw [← hflat]; simp [Token.encAll]
    obtain ⟨h1, h2⟩ := placed_text (runs (Token.isWordRune u) (decode dat).dropLast) rest 0
    rw [← hrest] at h1
    have hl : (Token.encAll ((runs (Token.isWordRune u) (decode dat).dropLast).flatMap Prod.snd)).length ≤ dat.length := by
      have := congrArg List.length hrest; rw [List.length_append] at this; omega
    refine ⟨fun w hw => ?_, h2⟩
    obtain ⟨g1, g2, g3⟩ := h1 w hw
    exact ⟨by omega, by simpa using g3⟩
  · exact ⟨by simp, List.Pairwise.nil⟩

theorem placed_ne (gs : List (Bool × List Rune)) (h : ∀ g ∈ gs, 0 < (Token.encAll g.2).length) : ∀ p, ∀ w ∈ placedRunes p gs, w.2 ≠ [] := by
  induction gs with
  | nil => intro p; simp [placedRunes]
  | cons g gs ih =>
    intro p w hw
    obtain ⟨f, rs⟩ := g
    have h2 := ih (fun g hg => h g (by simp [hg])) (p + (Token.encAll rs).length)
    cases f
    · exact h2 w (by simpa [placedRunes] using hw)
    · simp only [placedRunes, if_true, List.mem_cons] at hw
      rcases hw with rfl | hw
      · exact List.length_pos_iff.mp (h (true, rs) (by simp))
      · exact h2 w hw

theorem wordsAt_ne (u : Uni) (dat : Bytes) : ∀ w ∈ wordsAt u dat, w.2 ≠ [] := by
  rw [wordsAt_eq]
  split
  · have hr := isRuns_runs (Token.isWordRune u) (decode dat).dropLast
    refine placed_ne _ (fun g hg => Token.encAll_pos (d := dat) (hr.nonempty g hg) fun r hrr => ?_) 0
    refine (List.dropLast_subset (decode dat)) ?_
    rw [← hr.cover]
    exact List.mem_flatMap.mpr ⟨g, hg, hrr⟩
  · simp

/-- positions increase -/
theorem wordsAt_le (u : Uni) (dat : Bytes) {i j : Nat} {a b : Nat × Bytes} (ha : (wordsAt u dat)[i]? = some a)
    (hb : (wordsAt u dat)[j]? = some b) (hij : i ≤ j) : a.1 ≤ b.1 := by
  rcases Nat.lt_or_eq_of_le hij with h | h
  · obtain ⟨hi, rfl⟩ := List.getElem?_eq_some_iff.mp ha
    obtain ⟨hj, rfl⟩ := List.getElem?_eq_some_iff.mp hb
    have := List.pairwise_iff_getElem.mp (wordsAt_text u dat).2 i j hi hj h
    omega
  · subst h; rw [ha] at hb; cases hb; exact Nat.le_refl _

namespace Index

theorem blotMod_toNat {c : Config} (h0 : 0 < c.numShards) (h1 : c.numShards < 65536) :
    (blotMod c).toNat = numBuckets c ∧ blotMod c ≠ 0 := by
  have : (blotMod c).toNat = numBuckets c := by
    unfold blotMod numBuckets
    rw [UInt32.toNat_mul, UInt32.toNat_ofNat']
    have : (c.numShards % 2 ^ 32).toNat = c.numShards.toNat := by omega
    rw [this]
    show c.numShards.toNat % 2 ^ 32 * 65536 % 2 ^ 32 = _
    omega
  refine ⟨this, fun h => ?_⟩
  rw [h] at this
  unfold numBuckets at this
  simp at this; omega

theorem compact_get {toks W : List Tok} (h : wordToks toks = W) (i : Nat) (hi : i < W.length) : (compact toks)[i]? = W[i]? := by
  unfold compact
  rw [h, List.getElem?_append_left hi]

theorem span_ok {all W : List Tok} (hall : ∀ i : Nat, i < W.length → all[i]? = W[i]?) (S i : Nat) (hS : S ≤ i) (tok t : Tok)
    (ht : W[i - S]? = some t) : span (S : Int) all i tok = .ok (t.pos, tok.pos + UInt32.ofNat tok.lit.length) := by
  unfold span
  have : ((i : Int) - (S : Int)).toNat = i - S := by omega
  rw [if_neg (by omega), this, hall _ (List.getElem?_eq_some_iff.mp ht).1, ht]

/-- the loop returns the passage of the first blot that matches -/
theorem findBlotLoop_spec (u : Uni) (n k : Nat) (N the : UInt32) (hN : N ≠ 0) (all W : List Tok)
    (hall : ∀ i : Nat, i < W.length → all[i]? = W[i]?) (toks : List Tok) :
    ∀ (b : Blotter) (cur : List UInt32), BlotRepL b n k cur → toks = W.drop cur.length → cur.length ≤ W.length →
      match (blotsFrom n k cur ((toks.map Tok.lit).map (wordHash u))).findIdx? (fun h => h % N = the) with
      | none => findBlotLoop u ((n * k : Nat) : Int) N the all b cur.length toks = fail (.msg "blot not found")
      | some i => ∃ t t', W[max cur.length (n * k) - n * k + i]? = some t ∧ W[max cur.length (n * k) + i]? = some t' ∧
          findBlotLoop u ((n * k : Nat) : Int) N the all b cur.length toks = .ok (t.pos, t'.pos + UInt32.ofNat t'.lit.length) := by
  induction toks with
  | nil => intro b cur _ _ _; simp [blotsFrom, findBlotLoop]
  | cons tok toks ih =>
    intro b cur h hd hl
    obtain ⟨b1, hb1, hr1⟩ := h.blot (wordHash u tok.lit)
    have hlt : cur.length < W.length := by
      rcases Nat.lt_or_ge cur.length W.length with hh | hh
      · exact hh
      · rw [List.drop_eq_nil_of_le hh] at hd; cases hd
    have hcons := List.drop_eq_getElem_cons hlt
    rw [← hd] at hcons
    injection hcons with e1 e2
    have e1' : W[cur.length]? = some tok := by rw [List.getElem?_eq_getElem hlt, ← e1]
    have hi := ih b1 (wordHash u tok.lit :: cur) hr1 (by simpa using e2) (by simp; omega)
    simp only [findBlotLoop, Blotter.blot, hb1, bind, Except.bind, List.map_cons, blotsFrom]
    by_cases hc : cur.length < n * k
    · rw [if_neg (by simp; omega), if_pos (by omega)]
      have m1 : max (wordHash u tok.lit :: cur).length (n * k) = max cur.length (n * k) := by simp; omega
      rw [m1] at hi
      exact hi
    · rw [if_pos (by simp; omega), if_neg (by omega), if_neg hN, List.findIdx?_cons]
      by_cases hm : windowXor n k (wordHash u tok.lit :: cur) % N = the
      · rw [if_pos (by simp [hm]), if_neg (by simp [hm])]
        have h1 : max cur.length (n * k) = cur.length := by omega
        simp only [h1, Nat.add_zero]
        have h2 : cur.length - n * k < W.length := by omega
        exact ⟨_, tok, List.getElem?_eq_getElem h2, e1', span_ok hall _ _ (by omega) _ _ (List.getElem?_eq_getElem h2)⟩
      · rw [if_neg (by simp [hm]), if_pos (by simp [hm])]
        have m1 : max (wordHash u tok.lit :: cur).length (n * k) = max cur.length (n * k) + 1 := by simp; omega
        rw [m1] at hi
        generalize hfi : (blotsFrom n k (wordHash u tok.lit :: cur) ((toks.map Tok.lit).map (wordHash u))).findIdx? _ = r at hi ⊢
        cases r with
        | none => exact hi
        | some i =>
          obtain ⟨t, t', g1, g2, g3⟩ := hi
          refine ⟨t, t', ?_, ?_, g3⟩
          · rw [← g1]; show W[_ + (i + 1)]? = _; congr 1; omega
          · rw [← g2]; show W[_ + (i + 1)]? = _; congr 1; omega

theorem get_set (res : Texts) (b' b : UInt32) (v : Bytes) : Texts.get (Texts.set res b' v) b = if b = b' then some v else Texts.get res b := by
  unfold Texts.get Texts.set
  rw [List.lookup_cons]
  by_cases h : b = b'
  · subst h; simp
  · have hb : (b == b') = false := by simpa using h
    rw [hb, if_neg h]
    simp only
    induction res with
    | nil => rfl
    | cons a res ih =>
      obtain ⟨x, y⟩ := a
      by_cases hx : x = b'
      · have hxb : (b == x) = false := by simp; exact fun e => h (e.trans hx)
        rw [List.filter_cons_of_neg (by simp [hx]), ih, List.lookup_cons, hxb]
      · rw [List.filter_cons_of_pos (by simp [hx]), List.lookup_cons, List.lookup_cons, ih]

/-- the loop collects the texts of `m` at places where their blot is -/
theorem findBlotsLoop_spec (u : Uni) (n k : Nat) (N : UInt32) (hN : N ≠ 0) (m : UInt32 → Option Bytes) (dat : Bytes) (all W : List Tok)
    (hall : ∀ i : Nat, i < W.length → all[i]? = W[i]?) (txt : Nat → Bytes)
    (htxt : ∀ (i : Nat) t t', W[i]? = some t → W[i + n * k]? = some t' →
      slice dat t.pos.toNat (t'.pos + UInt32.ofNat t'.lit.length).toNat = .ok (txt i)) (toks : List Tok) :
    ∀ (b : Blotter) (cur : List UInt32) (res : Texts), BlotRepL b n k cur → toks = W.drop cur.length → cur.length ≤ W.length →
      (∀ x t, Texts.get res x = some t → m x = some t) →
      ∃ res', findBlotsLoop u ((n * k : Nat) : Int) N m dat all b cur.length res toks = .ok res' ∧
        ∀ x t, Texts.get res' x = some t ↔ Texts.get res x = some t ∨ (m x = some t ∧
          ∃ (i : Nat) (h : UInt32), (blotsFrom n k cur ((toks.map Tok.lit).map (wordHash u)))[i]? = some h ∧ h % N = x ∧
            txt (max cur.length (n * k) - n * k + i) = t) := by
  induction toks with
  | nil => intro b cur res _ _ _ _; exact ⟨res, rfl, by simp [blotsFrom]⟩
  | cons tok toks ih =>
    intro b cur res h hd hl hres
    obtain ⟨b1, hb1, hr1⟩ := h.blot (wordHash u tok.lit)
    have hlt : cur.length < W.length := by
      rcases Nat.lt_or_ge cur.length W.length with hh | hh
      · exact hh
      · rw [List.drop_eq_nil_of_le hh] at hd; cases hd
    have hcons := List.drop_eq_getElem_cons hlt
    rw [← hd] at hcons
    injection hcons with e1 e2
    have e1' : W[cur.length]? = some tok := by rw [List.getElem?_eq_getElem hlt, ← e1]
    have hi := fun res => ih b1 (wordHash u tok.lit :: cur) res hr1 (by simpa using e2) (by simp; omega)
    simp only [findBlotsLoop, Blotter.blot, hb1, bind, Except.bind, List.map_cons, blotsFrom]
    by_cases hc : cur.length < n * k
    · have q1 : ¬ n * k < (wordHash u tok.lit :: cur).length := by simp; omega
      have q2 : (cur.length : Int) < ((n * k : Nat) : Int) := by omega
      simp only [if_neg q1, if_pos q2]
      have m1 : max (wordHash u tok.lit :: cur).length (n * k) = max cur.length (n * k) := by simp; omega
      rw [m1] at hi
      exact hi res hres
    · have q1 : n * k < (wordHash u tok.lit :: cur).length := by simp; omega
      have q2 : ¬ (cur.length : Int) < ((n * k : Nat) : Int) := by omega
      simp only [if_pos q1, if_neg q2, if_neg hN]
      have m1 : max (wordHash u tok.lit :: cur).length (n * k) = max cur.length (n * k) + 1 := by simp; omega
      rw [m1] at hi
      have h1 : max cur.length (n * k) = cur.length := by omega
      rw [h1] at hi ⊢
      -- the occurrences: this one and the later ones
      have hsplit : ∀ x t, (∃ (i : Nat) (h : UInt32), (windowXor n k (wordHash u tok.lit :: cur) ::
              blotsFrom n k (wordHash u tok.lit :: cur) ((toks.map Tok.lit).map (wordHash u)))[i]? = some h ∧ h % N = x ∧
            txt (cur.length - n * k + i) = t) ↔
          (windowXor n k (wordHash u tok.lit :: cur) % N = x ∧ txt (cur.length - n * k) = t) ∨
          (∃ (i : Nat) (h : UInt32), (blotsFrom n k (wordHash u tok.lit :: cur) ((toks.map Tok.lit).map (wordHash u)))[i]? = some h ∧ h % N = x ∧
            txt (cur.length + 1 - n * k + i) = t) := by
        intro x t
        constructor
        · rintro ⟨i, h, g1, g2, g3⟩
          cases i with
          | zero => simp at g1; subst g1; exact .inl ⟨g2, g3⟩
          | succ i => exact .inr ⟨i, h, by simpa using g1, g2, by rw [← g3]; congr 1; omega⟩
        · rintro (⟨g1, g2⟩ | ⟨i, h, g1, g2, g3⟩)
          · exact ⟨0, _, rfl, g1, g2⟩
          · exact ⟨i + 1, h, by simpa using g1, g2, by rw [← g3]; congr 1; omega⟩
      simp only [hsplit]
      generalize hw : windowXor n k (wordHash u tok.lit :: cur) = w at hi ⊢
      have h2 : cur.length - n * k < W.length := by omega
      have hsp := span_ok hall (n * k) cur.length (by omega) tok _ (List.getElem?_eq_getElem h2)
      have hsl := htxt (cur.length - n * k) _ tok (List.getElem?_eq_getElem h2) (by rw [Nat.sub_add_cancel (by omega)]; exact e1')
      cases hm : m (w % N) with
      | none =>
        obtain ⟨r, g1, g2⟩ := hi res hres
        refine ⟨r, g1, fun x t => ?_⟩
        rw [g2]
        refine or_congr_right (and_congr_right fun hx => ?_)
        constructor
        · exact .inr
        · rintro (⟨rfl, _⟩ | hh)
          · rw [hm] at hx; cases hx
          · exact hh
      | some t0 =>
        simp only [hsp, hsl]
        by_cases ht : t0 = txt (cur.length - n * k)
        · rw [if_pos ht]
          obtain ⟨r, g1, g2⟩ := hi (Texts.set res (w % N) (txt (cur.length - n * k))) (by
            intro x t hx
            rw [get_set] at hx
            by_cases e : x = w % N
            · rw [if_pos e] at hx; rw [e, hm, ht]; exact hx
            · rw [if_neg e] at hx; exact hres x t hx)
          refine ⟨r, g1, fun x t => ?_⟩
          rw [g2, get_set]
          by_cases e : x = w % N
          · subst e
            rw [if_pos rfl, hm]
            simp only [Option.some.injEq, true_and, ht]
            constructor
            · rintro (rfl | ⟨rfl, hh⟩)
              · exact .inr ⟨rfl, .inl rfl⟩
              · exact .inr ⟨rfl, .inl rfl⟩
            · rintro (hh | ⟨rfl, hh⟩)
              · have := hres _ _ hh; rw [hm] at this; cases this; exact .inl ht.symm
              · exact .inl rfl
          · rw [if_neg e]
            have : w % N ≠ x := fun e' => e e'.symm
            simp only [this, false_and, false_or]
        · rw [if_neg ht]
          obtain ⟨r, g1, g2⟩ := hi res hres
          refine ⟨r, g1, fun x t => ?_⟩
          rw [g2]
          refine or_congr_right (and_congr_right fun hx => ?_)
          constructor
          · exact .inr
          · rintro (⟨rfl, e⟩ | hh)
            · rw [hm] at hx; injection hx with hx; exact absurd (hx.trans e.symm) ht
            · exact hh

/-- if no passage lies in the data, looking at one panics -/
theorem findBlotsLoop_panic (u : Uni) (n k : Nat) (N : UInt32) (hN : N ≠ 0) (m : UInt32 → Option Bytes) (dat : Bytes) (all W : List Tok)
    (hall : ∀ i : Nat, i < W.length → all[i]? = W[i]?)
    (htxt : ∀ (i : Nat) t t', W[i]? = some t → W[i + n * k]? = some t' →
      slice dat t.pos.toNat (t'.pos + UInt32.ofNat t'.lit.length).toNat = panic') (toks : List Tok) :
    ∀ (b : Blotter) (cur : List UInt32) (res : Texts), BlotRepL b n k cur → toks = W.drop cur.length → cur.length ≤ W.length →
      (∃ h ∈ blotsFrom n k cur ((toks.map Tok.lit).map (wordHash u)), m (h % N) ≠ none) →
      findBlotsLoop u ((n * k : Nat) : Int) N m dat all b cur.length res toks = panic' := by
  induction toks with
  | nil => intro b cur res _ _ _ h; simp [blotsFrom] at h
  | cons tok toks ih =>
    intro b cur res h hd hl hex
    obtain ⟨b1, hb1, hr1⟩ := h.blot (wordHash u tok.lit)
    have hlt : cur.length < W.length := by
      rcases Nat.lt_or_ge cur.length W.length with hh | hh
      · exact hh
      · rw [List.drop_eq_nil_of_le hh] at hd; cases hd
    have hcons := List.drop_eq_getElem_cons hlt
    rw [← hd] at hcons
    injection hcons with e1 e2
    have e1' : W[cur.length]? = some tok := by rw [List.getElem?_eq_getElem hlt, ← e1]
    have hi := ih b1 (wordHash u tok.lit :: cur) res hr1 (by simpa using e2) (by simp; omega)
    simp only [findBlotsLoop, Blotter.blot, hb1, bind, Except.bind]
    simp only [List.map_cons, blotsFrom] at hex
    by_cases hc : cur.length < n * k
    · rw [if_neg (by simp; omega)] at hex
      rw [if_pos (by omega)]
      exact hi hex
    · rw [if_pos (by simp; omega)] at hex
      rw [if_neg (by omega), if_neg hN]
      have h2 : cur.length - n * k < W.length := by omega
      have hsp := span_ok hall (n * k) cur.length (by omega) tok _ (List.getElem?_eq_getElem h2)
      have hsl := htxt (cur.length - n * k) _ tok (List.getElem?_eq_getElem h2) (by rw [Nat.sub_add_cancel (by omega)]; exact e1')
      cases hm : m (windowXor n k (wordHash u tok.lit :: cur) % N) with
      | none =>
        obtain ⟨x, hx, hne⟩ := hex
        rcases List.mem_cons.mp hx with rfl | hx
        · exact absurd hm hne
        · exact hi ⟨x, hx, hne⟩
      | some t0 => simp only [hsp, hsl]

end Index
end Dupi
