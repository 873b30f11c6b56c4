import Verif.Props.ConfigFile
import Verif.Props.Query
/-! # C49: what a configuration file that `ReadConfig` accepts can lead to -/

namespace Dupi.Props
open Dupi.Spec Dupi.Json

/-- the configurations with which text can be blotted -/
def Blots (c : Config) : Prop :=
  c.tokenConfig.name = wordsSimple ∧ 0 < c.blotConfig.interleave ∧ 0 < c.blotConfig.seqLen

theorem blotDocLoop_total (u : Uni) (s : Int) (n k : Nat) (toks : List Tok) :
    ∀ (b : Blotter) (l : List UInt32) (i : Nat) (dst : List UInt32), BlotRepL b n k l → ∃ r, blotDocLoop u s b i dst toks = .ok r := by
  induction toks with
  | nil => intro b l i dst _; exact ⟨dst, rfl⟩
  | cons tok toks ih =>
    intro b l i dst h
    obtain ⟨b1, hb1, hr1⟩ := h.blot (wordHash u tok.lit)
    simp only [blotDocLoop, Blotter.blot, hb1, bind, Except.bind]
    split
    · exact ih b1 _ _ _ hr1
    · exact ih b1 _ _ _ hr1

/-- With such a configuration every text can be blotted, whatever `SeqLen` is. -/
theorem C49_blots_partial (u : Uni) (c : Config) (h : Blots c) (dst : List UInt32) (dat : Bytes) (start : UInt32) :
    ∃ bs, blotDoc u c dst dat start = .ok bs := by
  obtain ⟨h1, h2, h3⟩ := h
  obtain ⟨b, hb, hr⟩ := fromConfig_repL c.blotConfig h3 h2
  obtain ⟨toks, ht, _⟩ := tokenize_words u dat start
  obtain ⟨r, hr⟩ := blotDocLoop_total u c.seqLen _ _ (wordToks toks) b [] 0 dst hr
  exact ⟨r, by simp only [blotDoc, tokenFunc_ok h1, Config.blotter, hb, ht, bind, Except.bind, hr]⟩

/-- the tokens of the text "aa" -/
theorem tokenize_aa (u : Uni) (start : UInt32) :
    ∃ toks, Token.tokenize u [] [97, 97] start = .ok toks ∧ ∃ t, wordToks toks = [t] := by
  obtain ⟨toks, h1, h2⟩ := tokenize_words u [97, 97] start
  refine ⟨toks, h1, ?_⟩
  have hw : words u [97, 97] = [[97]] := by
    have hd : decode [97, 97] = [⟨some 97, [97]⟩, ⟨some 97, [97]⟩] := by decide +kernel
    have hv : utf8Valid [97, 97] = true := by decide +kernel
    have hi : Token.isWordRune u ⟨some 97, [97]⟩ = true := by
      show (u.isLetter 97 || u.isDigit 97) = true
      rw [u.letter 97 (by decide)]; rfl
    rw [words_eq, if_pos hv, hd]
    simp [runs, hi]
  rw [hw] at h2
  have hl := congrArg List.length h2
  rw [List.length_map] at hl
  exact List.length_eq_one_iff.mp hl

/-- With any other configuration blotting the text "aa" panics. -/
theorem C49_panics_partial (u : Uni) (c : Config) (h : ¬ Blots c) (dst : List UInt32) (start : UInt32) :
    blotDoc u c dst [97, 97] start = panic' := by
  unfold blotDoc
  by_cases h1 : c.tokenConfig.name = wordsSimple
  · rw [tokenFunc_ok h1]
    simp only [bind, Except.bind]
    by_cases h2 : 0 < c.blotConfig.interleave
    · have h3 : ¬ 0 < c.blotConfig.seqLen := fun h3 => h ⟨h1, h2, h3⟩
      by_cases h4 : c.blotConfig.seqLen < 0
      · have : Blotter.fromConfig c.blotConfig = panic' := by
          unfold Blotter.fromConfig Circ.new
          rw [if_neg (by omega), if_pos h4]
          split <;> rfl
        simp only [Config.blotter, this, panic']
      · have h5 : c.blotConfig.seqLen = 0 := by omega
        obtain ⟨toks, ht, t, hw⟩ := tokenize_aa u start
        have hb : ∃ b, Blotter.fromConfig c.blotConfig = .ok b ∧ ∀ x, b.blotHash x = panic' := by
          unfold Blotter.fromConfig Circ.new
          rw [if_neg (by omega), if_neg h4, h5]
          split
          · exact ⟨_, rfl, fun x => rfl⟩
          · refine ⟨_, rfl, fun x => ?_⟩
            obtain ⟨m, hm⟩ : ∃ m, c.blotConfig.interleave.toNat = m + 1 := ⟨c.blotConfig.interleave.toNat - 1, by omega⟩
            rw [hm]
            rfl
        obtain ⟨b, hb, hp⟩ := hb
        simp only [Config.blotter, hb, ht, hw, blotDocLoop, Blotter.blot, hp, bind, Except.bind, panic']
    · have : Blotter.fromConfig c.blotConfig = fail (.msg "invalid config: interleave") := by
        unfold Blotter.fromConfig
        rw [if_pos (by omega)]
      simp only [Config.blotter, this, fail, panic']
  · have : c.tokenFunc = panic' := by
      unfold Config.tokenFunc TokenConfig.fromConfig
      rw [if_neg h1]
    rw [this]; rfl

/-- **C49, as it is.**  Every text can be blotted if and only if the configuration names the tokenizer there is and has a positive length and interleaving. -/
theorem C49_iff_partial (u : Uni) (c : Config) : (∀ dst dat start, ∃ bs, blotDoc u c dst dat start = .ok bs) ↔ Blots c := by
  refine ⟨fun h => Classical.byContradiction fun hn => ?_, fun h dst dat start => C49_blots_partial u c h dst dat start⟩
  obtain ⟨bs, hb⟩ := h [] [97, 97] 0
  rw [C49_panics_partial u c hn] at hb
  cases hb

/-- An index opens with any other configuration file that passes the check in place of its own, if the number of shards is the same. -/
theorem C49_opens (srt : Sorter) (d : Dir) (x : Index) (hx : Index.open codec srt d = .ok x) (c : Config) (h : Ints c) (hc : c.check = .ok ())
    (h1 : IsText c.indexRoot) (h2 : IsText c.tokenConfig.name) (hn : c.numShards = x.config.numShards) :
    Index.open codec srt (d.set .cfg (written c)) = .ok { x with config := c } := by
  have hr : Config.readFrom codec (d.set .cfg (written c)) = .ok c := by
    have hu : codec.dec (written c) = .ok c := by
      show unmarshal (marshal c ++ [10]) = .ok c
      rw [unmarshal_marshal c h, if_pos (by decide), cleanConfig_valid h1 h2]
    simp [Config.readFrom, Dir.read, Dir.set, hu, hc, bind, Except.bind, pure, Except.pure]
  have hs : ∀ n i, Index.openShards srt (d.set .cfg (written c)) n i = Index.openShards srt d n i := by
    intro n
    induction n with
    | zero => intro i; rfl
    | succ n ih => intro i; simp [Index.openShards, ih, Dir.read, Dir.set]
  have hd : (d.set .cfg (written c)).read .dmd = d.read .dmd := by simp [Dir.read, Dir.set]
  have hf : (d.set .cfg (written c)).read .fnm = d.read .fnm := by simp [Dir.read, Dir.set]
  unfold Index.open at hx ⊢
  simp only [hr, hd, hf, hs, bind, Except.bind, pure, Except.pure] at hx ⊢
  split at hx
  · cases hx
  · rename_i c0 e0
    split at hx
    · cases hx
    · split at hx
      · cases hx
      · split at hx
        · cases hx
        · split at hx
          · cases hx
          · split at hx
            · cases hx
            · rename_i hneg _ xs exs
              injection hx with hx
              subst hx
              simp only at hn
              rw [hn, if_neg hneg, exs]

/-- **C49 is false.**  Take any index that opens and a root that is valid UTF-8.  There is a configuration file with which it still opens and blotting a text
of two letters panics: one that names another tokenizer, and one with a negative length and interleaving, whose product is right. -/
theorem C49_false (u : Uni) (srt : Sorter) (d : Dir) (x : Index) (hx : Index.open codec srt d = .ok x) (hi : Ints x.config)
    (h1 : IsText x.config.indexRoot) :
    (∃ c x', c.blotConfig = ⟨10, 1⟩ ∧ Index.open codec srt (d.set .cfg (written c)) = .ok x' ∧ ∀ dst start, blotDoc u x'.config dst [97, 97] start = panic') ∧
      ∃ c x', c.tokenConfig.name = wordsSimple ∧ Index.open codec srt (d.set .cfg (written c)) = .ok x' ∧
        ∀ dst start, blotDoc u x'.config dst [97, 97] start = panic' := by
  have i (n : Int) (h : -2 ^ 63 ≤ n) (h' : n < 2 ^ 63) : IsInt n := ⟨h, h'⟩
  have k1 : Config.check { x.config with seqLen := 10, blotConfig := ⟨10, 1⟩, tokenConfig := ⟨[120]⟩ } = .ok () := by
    unfold Config.check; rw [if_neg]; show ¬ (10 : Int) ≠ u64ToI64 (i64ToU64 (1 * 10)); decide
  have k2 : Config.check { x.config with seqLen := 10, blotConfig := ⟨-10, -1⟩, tokenConfig := ⟨wordsSimple⟩ } = .ok () := by
    unfold Config.check; rw [if_neg]; show ¬ (10 : Int) ≠ u64ToI64 (i64ToU64 (-1 * -10)); decide
  have v1 : IsText [120] := isText_iff.mpr (by decide)
  have v2 : IsText wordsSimple := isText_iff.mpr (by decide)
  have n1 : ¬ ([120] : Bytes) = wordsSimple := by decide
  have n2 : ¬ (0 : Int) < -1 := by decide
  refine ⟨⟨{ x.config with seqLen := 10, blotConfig := ⟨10, 1⟩, tokenConfig := ⟨[120]⟩ }, _, rfl,
      C49_opens srt d x hx _ ⟨i 10 (by decide) (by decide), hi.numShards, hi.numShatters, hi.docFlushRate, i 10 (by decide) (by decide),
        i 1 (by decide) (by decide)⟩ k1 h1 v1 rfl,
      fun dst start => C49_panics_partial u _ (fun h => n1 h.1) dst start⟩,
    ⟨{ x.config with seqLen := 10, blotConfig := ⟨-10, -1⟩, tokenConfig := ⟨wordsSimple⟩ }, _, rfl,
      C49_opens srt d x hx _ ⟨i 10 (by decide) (by decide), hi.numShards, hi.numShatters, hi.docFlushRate, i (-10) (by decide) (by decide),
        i (-1) (by decide) (by decide)⟩ k2 h1 v2 rfl,
      fun dst start => C49_panics_partial u _ (fun h => n2 h.2.1) dst start⟩⟩

/-- the indexes in question: those made by any sessions -/
theorem C49_nonvacuous {u : Uni} {srt : Sorter} (hsrt : IsSorter srt) {c : Config} (hU : Usable codec c) (hi : Ints c) (h1 : IsText c.indexRoot)
    {h : Sessions} {d : Dir} (hd : History u codec c h d) (hf : Fits u c (documents h)) :
    ∃ x, Index.open codec srt d = .ok x ∧ Ints x.config ∧ IsText x.config.indexRoot := by
  obtain ⟨x, q, g1, g2⟩ := reading_exists hU hsrt hd hf
  have g3 : x.config = c := (g2.rep hU hsrt hf).2.2.2.2.1
  exact ⟨x, g1, by rw [g3]; exact hi, by rw [g3]; exact h1⟩

/-- An index without shards opens too, and every call of `Get`, and of `Next` with room for a blot, panics. -/
theorem C49_false_shards (J : CfgCodec) (srt : Sorter) (d : Dir) (c : Config) (dmd fnm : Bytes) (t : Fnames.Table) (hc : Config.readFrom J d = .ok c)
    (h0 : c.numShards = 0) (h1 : d .dmd = some dmd) (h2 : d .fnm = some fnm) (h3 : Fnames.read fnm = .ok t) :
    ∃ x q, Index.open J srt d = .ok x ∧ x.startQuery = .ok q ∧ ∀ grow ff fuel,
      (∀ b, Query.get grow x fuel q b = panic') ∧ ∀ b dst, Query.next grow x ff (fuel + 1) q (b :: dst) = panic' := by
  refine ⟨⟨c, dmd, t, []⟩, ⟨[], 0, 0, 0⟩, ?_, rfl, fun grow ff fuel => ⟨fun b => ?_, fun b dst => ?_⟩⟩
  · simp [Index.open, hc, h0, h1, h2, h3, Dir.read, Index.openShards, bind, Except.bind, pure, Except.pure]
  · simp [Query.get]
  · simp [Query.next, Query.nextLoop]

end Dupi.Props
