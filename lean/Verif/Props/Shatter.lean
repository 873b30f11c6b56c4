import Verif.Proof.Shatter
/-! # C13: the posts of a document -/

namespace Dupi.Props
open Dupi.Spec

/-- a configuration whose tokenizer exists, whose blotter is usable and whose two ideas of a passage's length agree; the last is
what `config.go:check` tests, without overflow -/
structure Consistent (c : Config) : Prop where
  seq : 0 < c.blotConfig.seqLen
  inter : 0 < c.blotConfig.interleave
  prod : c.seqLen = c.blotConfig.interleave * c.blotConfig.seqLen
  tok : c.tokenConfig.name = wordsSimple

/-- a shatterer processing documents (docid, offset, data) one after the other, posts discarded -/
def processAll (u : Uni) (c : Config) (n : Nat) : Shatterer → List (UInt32 × UInt32 × Bytes) → M Shatterer
  | b, [] => .ok b
  | b, (did, off, msg) :: docs => do
    let (b, _) ← Shatter.compute u c.seqLen n b did off msg
    processAll u c n b docs

theorem Consistent.seqLen_eq {c : Config} (h : Consistent c) :
    c.seqLen = ((c.blotConfig.seqLen.toNat * c.blotConfig.interleave.toNat : Nat) : Int) := by
  have h1 := h.seq
  have h2 := h.inter
  rw [h.prod, Int.natCast_mul, Int.toNat_of_nonneg (by omega), Int.toNat_of_nonneg (by omega), Int.mul_comm]

theorem processAll_rep (u : Uni) (c : Config) (hc : Consistent c) (n : Nat) (hN : 0 < n) (hN2 : n < 2 ^ 32)
    (docs : List (UInt32 × UInt32 × Bytes)) : ∀ (b : Blotter) (l : List UInt32),
      BlotRepL b c.blotConfig.seqLen.toNat c.blotConfig.interleave.toNat l →
      ∃ b' l', processAll u c n b docs = .ok b' ∧
        BlotRepL b' c.blotConfig.seqLen.toNat c.blotConfig.interleave.toNat l' := by
  induction docs with
  | nil => intro b l h; exact ⟨b, l, rfl, h⟩
  | cons x docs ih =>
    intro b l h
    obtain ⟨did, off, msg⟩ := x
    obtain ⟨b1, g1, g2⟩ := compute_spec u _ _ n hN hN2 b l h did off msg
    obtain ⟨b2, l2, g3, g4⟩ := ih b1 _ g2
    exact ⟨b2, l2, by simp only [processAll, hc.seqLen_eq, g1, bind, Except.bind, g3], g4⟩

/-- **C13.** Take any consistent configuration, a shatterer that has processed any documents, and
one more document. Blotting that document afresh with `BlotDoc` (for any claimed start offset) gives
blots `bs`, and the shatterer's posts for shard `i` are the blots of `bs` that are `i` modulo the
number of shards, in order, each paired with the document's id. -/
theorem C13_posts (u : Uni) (c : Config) (hc : Consistent c) (n : Nat) (hN : 0 < n) (hN2 : n < 2 ^ 32)
    (before : List (UInt32 × UInt32 × Bytes)) (did off start : UInt32) (msg : Bytes) :
    ∃ b0 b bs b' d, c.blotter = .ok b0 ∧ processAll u c n b0 before = .ok b ∧
      blotDoc u c [] msg start = .ok bs ∧
      Shatter.compute u c.seqLen n b did off msg = .ok (b', d) ∧ d.length = n ∧
      ∀ i < n, d[i]? = some ((bs.filter fun x => x.toNat % n = i).map
        fun x => Post.make did (x / UInt32.ofNat n)) := by
  obtain ⟨b0, h0, hr0⟩ := fromConfig_repL c.blotConfig hc.seq hc.inter
  obtain ⟨b, l, h1, hr1⟩ := processAll_rep u c hc n hN hN2 before b0 [] hr0
  obtain ⟨b', h2, _⟩ := compute_spec u _ _ n hN hN2 b l hr1 did off msg
  refine ⟨b0, b, _, b', _, by simp [Config.blotter, h0], h1,
    blotDoc_spec u c hc.seq hc.inter hc.prod hc.tok [] msg start, by rw [hc.seqLen_eq]; exact h2, by simp [route], ?_⟩
  intro i hi
  simp [route, hi]

/-- the blots `BlotDoc` reports: for each word preceded by at least `SeqLen` words of the document,
the xor over the window ending there -/
theorem C13_blots (u : Uni) (c : Config) (hc : Consistent c) (start : UInt32) (msg : Bytes) :
    blotDoc u c [] msg start = .ok
      (blots c.blotConfig.seqLen.toNat c.blotConfig.interleave.toNat ((wordChars u msg).map (hashOf u))) := by
  rw [hash_words]
  simpa using blotDoc_spec u c hc.seq hc.inter hc.prod hc.tok [] msg start

/-- no post gets lost on the way to the shards: the blots can be put together again from the
shard number and the post -/
theorem C13_rejoin (n : Nat) (hN : 0 < n) (hN2 : n < 2 ^ 32) (x : UInt32) :
    (x / UInt32.ofNat n).toNat * n + x.toNat % n = x.toNat := by
  have hn : (UInt32.ofNat n).toNat = n := by simp only [UInt32.toNat_ofNat']; omega
  rw [UInt32.toNat_div, hn, Nat.mul_comm]
  exact Nat.div_add_mod _ _

/-- non-vacuity: the configuration `NewConfig` makes is consistent, and there are documents with blots -/
theorem C13_nonvacuous (cwd root : Bytes) (n : Int) : ∃ c, Config.new cwd root n 10 = .ok c ∧ Consistent c :=
  ⟨_, rfl, ⟨by simp, by simp, by simp, rfl⟩⟩

example : (blots 2 1 [1, 2, 4, 8]) = [6, 12] := by decide

end Dupi.Props
