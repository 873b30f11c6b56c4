import Verif.Model.Shatter
import Verif.Proof.Blotter
import Verif.Proof.Token
import Verif.Proof.Words
import Verif.Proof.ListX
/-! # What a shatterer computes for a document -/

namespace Dupi
open Spec

theorem render_words (off : UInt32) (gs : List (Bool × List Rune)) : ∀ p,
    (wordToks (Token.render off p gs)).map Tok.lit = (gs.filter (·.1)).map fun g => g.2.flatMap Rune.enc := by
  induction gs with
  | nil => intro p; rfl
  | cons g gs ih =>
    intro p
    obtain ⟨w, rs⟩ := g
    have := ih (p + (Token.encAll rs).length)
    cases w
    · simp [Token.render, wordToks] at this ⊢; exact this
    · simp [Token.render, wordToks, Token.encAll] at this ⊢; exact this

/-- tokenizing always succeeds, and the Word tokens are the words -/
theorem tokenize_words (u : Uni) (dat : Bytes) (off : UInt32) :
    ∃ toks, Token.tokenize u [] dat off = .ok toks ∧ (wordToks toks).map Tok.lit = words u dat := by
  cases hv : utf8Valid dat
  · exact ⟨[], Token.tokenize_invalid u [] dat off hv, by simp [words_eq, hv, wordToks]⟩
  · refine ⟨_, Token.tokenize_eq u [] dat off hv, ?_⟩
    simp only [List.nil_append, render_words, words_eq, hv, if_true]

/-- the blots of further words after the words with hashes `cur` (most recent first) -/
def blotsFrom (n k : Nat) (cur : List UInt32) : List UInt32 → List UInt32
  | [] => []
  | h :: hs => if n * k < (h :: cur).length then windowXor n k (h :: cur) :: blotsFrom n k (h :: cur) hs
    else blotsFrom n k (h :: cur) hs

theorem blotsFrom_eq (n k : Nat) (hs : List UInt32) : ∀ cur,
    blotsFrom n k cur hs = ((List.range hs.length).filter (fun i => n * k ≤ cur.length + i)).map
      fun i => windowXor n k ((hs.take (i + 1)).reverse ++ cur) := by
  induction hs with
  | nil => intro cur; rfl
  | cons h hs ih =>
    intro cur
    rw [List.length_cons, List.range_succ_eq_map, List.filter_cons]
    have e : ∀ i, (n * k ≤ cur.length + (i + 1)) ↔ (n * k ≤ (h :: cur).length + i) := by intro i; simp; omega
    simp only [blotsFrom, ih, List.filter_map, Function.comp_def, List.length_cons, Nat.succ_eq_add_one,
      List.take_succ_cons, List.reverse_cons, List.append_assoc, List.singleton_append, Nat.add_zero]
    have e2 : ∀ i, decide (n * k ≤ cur.length + 1 + i) = decide (n * k ≤ cur.length + (i + 1)) := by
      intro i; congr 1; apply propext; constructor <;> intro h <;> omega
    simp only [e2]
    by_cases hc : n * k ≤ cur.length
    · simp [hc, Nat.lt_succ_of_le hc]
    · have : ¬ n * k < cur.length + 1 := by omega
      simp [hc, this]

theorem blotsFrom_nil (n k : Nat) (hs : List UInt32) : blotsFrom n k [] hs = blots n k hs := by
  rw [blotsFrom_eq, blots]
  have : ∀ m a : Nat, (List.range m).filter (fun i => a ≤ i) = (List.range (m - a)).map (a + ·) := by
    intro m a
    induction m with
    | zero => simp
    | succ m ih =>
      rw [List.range_succ, List.filter_append, ih]
      by_cases h : a ≤ m
      · rw [show m + 1 - a = (m - a) + 1 by omega, List.range_succ, List.map_append]
        simp [h]
      · rw [show m + 1 - a = m - a by omega]; simp [h]
  simp only [List.length_nil, Nat.zero_add, this, List.append_nil, List.map_map, Function.comp_def]

/-- distributing the blots of document `did` over shards -/
def route (did : UInt32) (d : List (List Post)) (bs : List UInt32) : List (List Post) :=
  (List.range d.length).map fun i =>
    d.getD i [] ++ (bs.filter (fun b => b.toNat % d.length = i)).map fun b => Post.make did (b / UInt32.ofNat d.length)

theorem route_length (did : UInt32) (d : List (List Post)) (bs : List UInt32) : (route did d bs).length = d.length := by
  simp [route]

theorem route_nil (did : UInt32) (d : List (List Post)) : route did d [] = d := by
  unfold route
  apply List.ext_getElem
  · simp
  · intro i h1 h2
    simp [List.getD_eq_getElem?_getD, List.getElem?_eq_getElem h2]

theorem shatter_blot (did : UInt32) (d : List (List Post)) (b : UInt32) (h0 : 0 < d.length) (h1 : d.length < 2 ^ 32) :
    Shatter.blot d did b = .ok (route did d [b]) := by
  have hn : (UInt32.ofNat d.length).toNat = d.length := by simp only [UInt32.toNat_ofNat']; omega
  have hz : UInt32.ofNat d.length ≠ 0 := by
    intro h; have := congrArg UInt32.toNat h; rw [hn] at this; simp at this; simp [this] at h0
  have hi : (b % UInt32.ofNat d.length).toNat = b.toNat % d.length := by rw [UInt32.toNat_mod, hn]
  have hlt : b.toNat % d.length < d.length := Nat.mod_lt _ h0
  unfold Shatter.blot shatterRoute
  simp only [hz, if_false, bind, Except.bind, hi, List.getElem?_eq_getElem hlt, pure, Except.pure]
  congr 1
  apply List.ext_getElem
  · simp [route_length]
  · intro i h2 h3
    have hid : i < d.length := by simpa using h2
    simp only [route, List.getElem_map, List.getElem_range, List.getD_eq_getElem?_getD, List.getElem?_eq_getElem hid,
      Option.getD_some, List.getElem_set]
    by_cases e : b.toNat % d.length = i
    · subst e; simp
    · simp [e]

theorem route_cons (did : UInt32) (d : List (List Post)) (b : UInt32) (bs : List UInt32) :
    route did (route did d [b]) bs = route did d (b :: bs) := by
  apply List.ext_getElem
  · simp [route_length]
  · intro i h2 h3
    have hid : i < d.length := by simpa [route_length] using h2
    simp only [route, List.getElem_map, List.getElem_range, List.length_map, List.length_range, List.getD_eq_getElem?_getD,
      List.getElem?_eq_getElem hid, Option.getD_some, List.getElem?_map, List.getElem?_range hid, Option.map_some,
      List.append_assoc]
    congr 1
    by_cases e : b.toNat % d.length = i <;> simp [e]

theorem shatter_loop (u : Uni) (n k : Nat) (did : UInt32) (toks : List Tok) :
    ∀ (b : Blotter) (cur old : List UInt32) (d : List (List Post)),
      BlotRepL b n k (cur ++ old) → 0 < d.length → d.length < 2 ^ 32 →
      ∃ b', Shatter.loop u ((n * k : Nat) : Int) did b (cur.length : Int) d toks =
          .ok (b', route did d (blotsFrom n k cur (((wordToks toks).map Tok.lit).map (wordHash u)))) ∧
        BlotRepL b' n k ((((wordToks toks).map Tok.lit).map (wordHash u)).reverse ++ (cur ++ old)) := by
  induction toks with
  | nil => intro b cur old d h _ _; exact ⟨b, by simp [Shatter.loop, wordToks, blotsFrom, route_nil], by simpa [wordToks] using h⟩
  | cons tok toks ih =>
    intro b cur old d h h0 h1
    by_cases ht : tok.tag = .word
    · obtain ⟨b1, hb1, hr1⟩ := h.blot (wordHash u tok.lit)
      have hr1' : BlotRepL b1 n k ((wordHash u tok.lit :: cur) ++ old) := hr1
      have hw : wordToks (tok :: toks) = tok :: wordToks toks := by simp [wordToks, ht]
      simp only [Shatter.loop, ht, Blotter.blot, hb1, bind, Except.bind, hw, List.map_cons, blotsFrom]
      have hcl : ((cur.length : Int) + 1) = ((wordHash u tok.lit :: cur).length : Int) := by simp
      rw [hcl]
      by_cases hc : n * k < (wordHash u tok.lit :: cur).length
      · have hwin : windowXor n k (wordHash u tok.lit :: (cur ++ old)) = windowXor n k (wordHash u tok.lit :: cur) := by
          rw [← List.cons_append]; exact windowXor_full n k _ _ (by omega)
        rw [if_pos (by omega), hwin, shatter_blot _ _ _ h0 h1, if_pos hc]
        obtain ⟨b', g1, g2⟩ := ih b1 (wordHash u tok.lit :: cur) old (route did d [windowXor n k (wordHash u tok.lit :: cur)]) hr1'
          (by rw [route_length]; exact h0) (by rw [route_length]; exact h1)
        exact ⟨b', by simp only []; rw [g1, route_cons], by simpa using g2⟩
      · rw [if_neg (by omega), if_neg hc]
        obtain ⟨b', g1, g2⟩ := ih b1 (wordHash u tok.lit :: cur) old d hr1' h0 h1
        exact ⟨b', by simp only [pure, Except.pure]; rw [g1], by simpa using g2⟩
    · have hw : wordToks (tok :: toks) = wordToks toks := by simp [wordToks, ht]
      obtain ⟨b', g1, g2⟩ := ih b cur old d h h0 h1
      refine ⟨b', ?_, by rw [hw]; exact g2⟩
      rw [hw, ← g1, Shatter.loop]
      split
      · rename_i e; exact absurd e ht
      · rfl

theorem compute_spec (u : Uni) (n k N : Nat) (hN : 0 < N) (hN2 : N < 2 ^ 32) (b : Blotter) (old : List UInt32)
    (h : BlotRepL b n k old) (did off : UInt32) (msg : Bytes) :
    ∃ b', Shatter.compute u ((n * k : Nat) : Int) N b did off msg =
        .ok (b', route did (List.replicate N []) (blots n k ((words u msg).map (wordHash u)))) ∧
      BlotRepL b' n k (((words u msg).map (wordHash u)).reverse ++ old) := by
  obtain ⟨toks, ht, hw⟩ := tokenize_words u msg off
  obtain ⟨b', g1, g2⟩ := shatter_loop u n k did toks b [] old (List.replicate N []) (by simpa using h) (by simpa using hN) (by simpa using hN2)
  refine ⟨b', ?_, ?_⟩
  · simp only [Shatter.compute, ht, bind, Except.bind]
    rw [hw, blotsFrom_nil] at g1
    exact g1
  · rw [hw] at g2; simpa using g2

theorem blotDocLoop_spec (u : Uni) (n k : Nat) (toks : List Tok) :
    ∀ (b : Blotter) (cur : List UInt32) (dst : List UInt32), BlotRepL b n k cur →
      blotDocLoop u ((n * k : Nat) : Int) b cur.length dst toks = .ok (dst ++ blotsFrom n k cur ((toks.map Tok.lit).map (wordHash u))) := by
  induction toks with
  | nil => intro b cur dst _; simp [blotDocLoop, blotsFrom]
  | cons tok toks ih =>
    intro b cur dst h
    obtain ⟨b1, hb1, hr1⟩ := h.blot (wordHash u tok.lit)
    have := fun dst => ih b1 _ dst hr1
    simp only [blotDocLoop, Blotter.blot, hb1, bind, Except.bind, List.map_cons, blotsFrom, List.length_cons] at this ⊢
    by_cases hc : cur.length < n * k
    · rw [if_pos (by omega), if_neg (by omega), this]
    · rw [if_neg (by omega), if_pos (by omega), this]; simp

theorem tokenFunc_ok {c : Config} (h : c.tokenConfig.name = wordsSimple) : c.tokenFunc = .ok () := by
  simp only [Config.tokenFunc, TokenConfig.fromConfig, h, if_true]

theorem blotDoc_spec (u : Uni) (c : Config) (hs : 0 < c.blotConfig.seqLen) (hi : 0 < c.blotConfig.interleave)
    (hc : c.seqLen = c.blotConfig.interleave * c.blotConfig.seqLen) (htok : c.tokenConfig.name = wordsSimple) (dst : List UInt32) (dat : Bytes) (start : UInt32) :
    blotDoc u c dst dat start =
      .ok (dst ++ blots c.blotConfig.seqLen.toNat c.blotConfig.interleave.toNat ((words u dat).map (wordHash u))) := by
  obtain ⟨b, hb, hr⟩ := fromConfig_repL c.blotConfig hs hi
  obtain ⟨toks, ht, hw⟩ := tokenize_words u dat start
  have hsl : c.seqLen = ((c.blotConfig.seqLen.toNat * c.blotConfig.interleave.toNat : Nat) : Int) := by
    rw [hc, Int.natCast_mul, Int.toNat_of_nonneg (by omega), Int.toNat_of_nonneg (by omega), Int.mul_comm]
  have := blotDocLoop_spec u c.blotConfig.seqLen.toNat c.blotConfig.interleave.toNat (wordToks toks) b [] dst hr
  rw [← hsl, blotsFrom_nil, hw] at this
  simpa only [blotDoc, tokenFunc_ok htok, Config.blotter, hb, ht, bind, Except.bind, List.length_nil] using this

end Dupi
