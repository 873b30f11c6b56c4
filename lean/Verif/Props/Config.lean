import Verif.Model.Config
import Verif.Model.Shatter
import Verif.Props.Shatter
/-! # C33: which sequence lengths can be configured -/

namespace Dupi.Props

/-- **C33, first half, as it is.** `NewConfig` (hence `CreateIndexer`) accepts a sequence length if and
only if it is 10: it changes `SeqLen` but not the blotter's, and then checks that they agree. -/
theorem C33_accepts_partial (cwd root : Bytes) (n s : Int) :
    (∃ c, Config.new cwd root n s = .ok c) ↔ s = 10 := by
  have hd : Config.default cwd root = .ok
    { indexRoot := absPath cwd root, docFlushRate := 16384, numShards := 2, numShatters := 2, seqLen := 10,
      tokenConfig := ⟨wordsSimple⟩, blotConfig := ⟨10, 1⟩ } := rfl
  have hk : u64ToI64 (i64ToU64 (1 * 10)) = 10 := by decide
  simp only [Config.new, hd, bind, Except.bind, Config.check, hk, pure, Except.pure]
  by_cases h : s = 10
  · simp [h]
  · simp [h, fail]

/-- so a positive length other than 10 is refused -/
theorem C33_refuses_partial (cwd root : Bytes) (n s : Int) (h : s ≠ 10) :
    Config.new cwd root n s = fail (.msg "inconsistent sequence config") := by
  have hk : u64ToI64 (i64ToU64 (1 * 10)) = 10 := by decide
  have hd : Config.default cwd root = .ok
    { indexRoot := absPath cwd root, docFlushRate := 16384, numShards := 2, numShatters := 2, seqLen := 10,
      tokenConfig := ⟨wordsSimple⟩, blotConfig := ⟨10, 1⟩ } := rfl
  simp only [Config.new, hd, bind, Except.bind, Config.check, hk]
  rw [if_pos h]

/-- **C33, second half.** A configuration `NewConfig` accepts makes a usable blotter and a tokenizer,
and is consistent. -/
theorem C33_usable (cwd root : Bytes) (n s : Int) (c : Config) (h : Config.new cwd root n s = .ok c) :
    (∃ b, c.blotter = .ok b) ∧ c.tokenConfig.fromConfig = .ok () ∧ Consistent c := by
  obtain rfl := (C33_accepts_partial cwd root n s).mp ⟨c, h⟩
  obtain ⟨c', h1, h2⟩ := C13_nonvacuous cwd root n
  rw [h] at h1
  injection h1 with h1
  subst h1
  obtain ⟨b, hb, _⟩ := fromConfig_repL c.blotConfig h2.seq h2.inter
  refine ⟨⟨b, by simp [Config.blotter, hb]⟩, ?_, h2⟩
  injection h with h
  subst h
  rfl

example : (1 : Int) > 0 ∧ ¬ ∃ c, Config.new [] [] 1 1 = .ok c :=
  ⟨by decide, fun h => absurd ((C33_accepts_partial [] [] 1 1).mp h) (by decide)⟩

end Dupi.Props
