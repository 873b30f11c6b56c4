import Verif.Proof.Json
import Verif.Proof.Indexer
/-! # The configuration file: C46, C48 -/

namespace Dupi.Props
open Json Dupi.Spec

/-- white space of JSON -/
def Blank (s : Bytes) : Prop := ∀ b ∈ s, b = 32 ∨ b = 9 ∨ b = 10 ∨ b = 13

instance (s : Bytes) : Decidable (Blank s) := by unfold Blank; infer_instance

theorem skipWs_blank (s : Bytes) : skipWs s = [] ↔ Blank s := by
  induction s with
  | nil => simp [skipWs, Blank]
  | cons b t ih =>
    by_cases hb : isWs b = true
    · have h1 : skipWs (b :: t) = skipWs t := by unfold skipWs; rw [List.dropWhile_cons_of_pos hb]
      rw [h1, ih]
      simp only [isWs, Bool.or_eq_true, decide_eq_true_eq] at hb
      unfold Blank
      simp only [List.mem_cons, forall_eq_or_imp]
      constructor
      · intro h; exact ⟨by rcases hb with ((h | h) | h) | h <;> simp [h], h⟩
      · exact fun h => h.2
    · have h1 : skipWs (b :: t) = b :: t := by unfold skipWs; rw [List.dropWhile_cons_of_neg hb]
      rw [h1]
      simp only [isWs, Bool.or_eq_true, decide_eq_true_eq] at hb
      constructor
      · intro h; cases h
      · intro h; exfalso; apply hb
        rcases h b (by simp) with h | h | h | h <;> simp [h]

/-- the bytes `Config.Write` writes -/
def written (c : Config) : Bytes := marshal c ++ [10]

theorem read_written (c : Config) (h : Ints c) (hc : c.check = .ok ()) (d : Dir) :
    Config.readFrom codec (c.writeTo codec d) =
      if Blank (((d .cfg).getD []).drop (written c).length) then .ok (cleanConfig c) else fail (.msg "invalid JSON") := by
  have hw : (c.writeTo codec d) .cfg = some (marshal c ++ 10 :: ((d .cfg).getD []).drop (written c).length) := by
    simp [Config.writeTo, Dir.set, writeAt, codec, written]
  have hb : Blank (10 :: ((d .cfg).getD []).drop (written c).length) ↔ Blank (((d .cfg).getD []).drop (written c).length) := by
    unfold Blank; simp
  have hc' : (cleanConfig c).check = .ok () := hc
  unfold Config.readFrom Dir.read
  rw [hw]
  simp only [bind, Except.bind]
  rw [show codec.dec = unmarshal from rfl, unmarshal_marshal c h]
  by_cases hbl : Blank (((d .cfg).getD []).drop (written c).length)
  · rw [if_pos ((skipWs_blank _).mpr (hb.mpr hbl)), if_pos hbl]
    simp [hc', pure, Except.pure]
  · rw [if_neg (fun e => hbl (hb.mp ((skipWs_blank _).mp e))), if_neg hbl]
    rfl

theorem cleanConfig_valid {c : Config} (h1 : IsText c.indexRoot) (h2 : IsText c.tokenConfig.name) : cleanConfig c = c := by
  simp [cleanConfig, clean_valid (isText_iff.mp h1), clean_valid (isText_iff.mp h2)]

/-- **C48.**  A configuration (of any integers, of any strings that are valid UTF-8) written where there was no configuration file, or the
same one, reads back as it was. -/
theorem C48_roundtrip (c : Config) (h : Ints c) (hc : c.check = .ok ()) (h1 : IsText c.indexRoot) (h2 : IsText c.tokenConfig.name)
    (d : Dir) (hd : d .cfg = none ∨ d .cfg = some (written c)) : Config.readFrom codec (c.writeTo codec d) = .ok c := by
  rw [read_written c h hc, cleanConfig_valid h1 h2, if_pos]
  rcases hd with hd | hd <;> simp [hd, Blank]

theorem clean_length (s : Bytes) : (clean s).length = s.length + 2 * ((decode s).filter fun r => r.cp.isNone).length := by
  conv => rhs; rw [← decode_flat s]
  unfold clean
  have inv : ∀ r ∈ decode s, r.cp.isNone = true → r.enc.length = 1 := by
    intro r hr hn
    obtain ⟨b, t, rfl⟩ := decode_isRune s r hr
    revert hn
    unfold decodeRune
    repeat' (first | split | (intro h; simp_all; done))
  rw [show (decode ((decode s).flatMap Rune.enc)) = decode s by rw [decode_flat]]
  generalize decode s = rs at inv
  induction rs with
  | nil => rfl
  | cons r rs ih =>
    have := ih (fun x hx => inv x (by simp [hx]))
    have hr := inv r (by simp)
    simp only [List.flatMap_cons, List.length_append, this]
    cases hcp : r.cp with
    | none => rw [hcp] at hr; have := hr rfl; simp [cleanRune, hcp, this]; omega
    | some c => simp [cleanRune, hcp]; omega

/-- Valid UTF-8 is needed: any other root reads back as a different one. -/
theorem C48_false_utf8 (c c' : Config) (h : Ints c) (hc : c.check = .ok ()) (h1 : ¬ IsText c.indexRoot) (d : Dir)
    (hr : Config.readFrom codec (c.writeTo codec d) = .ok c') : c'.indexRoot ≠ c.indexRoot := by
  rw [read_written c h hc] at hr
  split at hr
  · injection hr with hr
    subst hr
    intro he
    have h2 := congrArg List.length he
    have h3 := clean_length c.indexRoot
    change (clean c.indexRoot).length = c.indexRoot.length at h2
    have h4 : (decode c.indexRoot).filter (fun r => r.cp.isNone) = [] := List.length_eq_zero_iff.mp (by omega)
    apply h1
    rw [isText_iff, utf8Valid_iff]
    intro r hr
    have := List.filter_eq_nil_iff.mp h4 r hr
    cases hcp : r.cp with
    | none => rw [hcp] at this; exact absurd rfl this
    | some => rfl
  · cases hr

/-- **C46 where it holds.**  If the old file is not longer than the new one, or has only white space beyond its length, the new configuration reads
back, whatever the old file contained. -/
theorem C46_shorter_partial (c : Config) (h : Ints c) (hc : c.check = .ok ()) (h1 : IsText c.indexRoot) (h2 : IsText c.tokenConfig.name)
    (d : Dir) (old : Bytes) (hd : d .cfg = some old) (hl : old.length ≤ (written c).length ∨ Blank (old.drop (written c).length)) :
    Config.readFrom codec (c.writeTo codec d) = .ok c := by
  rw [read_written c h hc, cleanConfig_valid h1 h2, if_pos]
  rcases hl with hl | hl
  · rw [hd]; simp [Blank, List.drop_eq_nil_of_le hl]
  · rw [hd]; exact hl

/-- In all other cases the index cannot be opened any more. -/
theorem C46_false_longer (c : Config) (h : Ints c) (hc : c.check = .ok ()) (d : Dir) (old : Bytes) (hd : d .cfg = some old)
    (hl : ¬ Blank (old.drop (written c).length)) : Config.readFrom codec (c.writeTo codec d) = fail (.msg "invalid JSON") := by
  rw [read_written c h hc, if_neg]
  rw [hd]; exact hl

/-- In particular after replacing a configuration by one that takes at least two bytes less. -/
theorem C46_false_config (c c' : Config) (h : Ints c) (hc : c.check = .ok ()) (d : Dir) (hd : d .cfg = some (written c'))
    (hl : (written c).length + 2 ≤ (written c').length) : Config.readFrom codec (c.writeTo codec d) = fail (.msg "invalid JSON") := by
  refine C46_false_longer c h hc d _ hd fun hb => ?_
  obtain ⟨m, hm⟩ : ∃ m, written c' = m ++ [125, 10] := by
    refine ⟨[123] ++ nl 1 ++ (((configMems c').map Mem.bytes).intersperse (44 :: nl 1)).flatten ++ nl 0, ?_⟩
    unfold written
    rw [marshal_eq, object, List.append_assoc _ [125] [10]]
    rfl
  rw [hm] at hb hl
  rw [List.drop_append_of_le_length (by simp at hl ⊢; omega)] at hb
  rcases hb 125 (by simp) with h | h | h | h <;> cases h

/-- there are such configurations: 100 shards before, 2 after -/
theorem encInt_small : encInt 2 = [50] ∧ encInt 100 = [49, 48, 48] ∧ encInt 10 = [49, 48] ∧ encInt 1 = [49] ∧ encInt 16384 = [49, 54, 51, 56, 52] := by decide +kernel

example : ∃ c c' : Config, Ints c ∧ c.check = .ok () ∧ (written c).length + 2 ≤ (written c').length :=
  ⟨⟨[47], 10, 2, 2, 16384, ⟨wordsSimple⟩, ⟨10, 1⟩⟩, ⟨[47], 10, 100, 2, 16384, ⟨wordsSimple⟩, ⟨10, 1⟩⟩,
    ⟨⟨by decide, by decide⟩, ⟨by decide, by decide⟩, ⟨by decide, by decide⟩, ⟨by decide, by decide⟩, ⟨by decide, by decide⟩, ⟨by decide, by decide⟩⟩,
    by decide, by decide +kernel⟩

/-- **C33, the check when opening.**  A configuration file that decodes is accepted if and only if its sequence length is the product of the blotter's
two numbers, up to a multiple of 2^64. -/
theorem C33_opened (J : CfgCodec) (d : Dir) (b : Bytes) (c : Config) (hb : d .cfg = some b) (hd : J.dec b = .ok c) (hi : IsInt c.seqLen) :
    Config.readFrom J d = .ok c ↔ ∃ k : Int, c.blotConfig.interleave * c.blotConfig.seqLen = c.seqLen + k * 2 ^ 64 := by
  have hr : Config.readFrom J d = .ok c ↔ c.check = .ok () := by
    unfold Config.readFrom Dir.read
    rw [hb]
    simp only [bind, Except.bind, hd, pure, Except.pure]
    cases c.check <;> simp
  rw [hr]
  unfold Config.check
  generalize c.blotConfig.interleave * c.blotConfig.seqLen = m
  obtain ⟨h1, h2⟩ := hi
  have hw : ∃ k : Int, m = u64ToI64 (i64ToU64 m) + k * 2 ^ 64 ∧ IsInt (u64ToI64 (i64ToU64 m)) := by
    have hm : (i64ToU64 m).toNat = (m % 2 ^ 64).toNat := by
      unfold i64ToU64
      rw [UInt64.toNat_ofNat']
      omega
    unfold u64ToI64
    rw [hm]
    split
    · exact ⟨m / 2 ^ 64, by omega, by constructor <;> omega⟩
    · exact ⟨m / 2 ^ 64 + 1, by omega, by constructor <;> omega⟩
  obtain ⟨k, hk, h3, h4⟩ := hw
  constructor
  · intro h
    split at h
    · cases h
    · rename_i hn
      exact ⟨k, by rw [Classical.not_not.mp hn]; exact hk⟩
  · rintro ⟨k', hk'⟩
    rw [if_neg]
    intro hne
    apply hne
    omega

/-- The second half of C33 is false of a configuration that is accepted when opening: `FromConfig` may refuse it, or panic. -/
theorem C33_false_opened :
    (∃ c : Config, Config.readFrom codec (c.writeTo codec (fun _ => none)) = .ok c ∧ ∃ e, Blotter.fromConfig c.blotConfig = fail e) ∧
    ∃ c : Config, Config.readFrom codec (c.writeTo codec (fun _ => none)) = .ok c ∧ Blotter.fromConfig c.blotConfig = panic' := by
  have ht (s : Bytes) (h : utf8Valid s = true) : IsText s := isText_iff.mpr h
  refine ⟨⟨⟨[47], 0, 2, 2, 16384, ⟨wordsSimple⟩, ⟨0, 0⟩⟩, C48_roundtrip _ ?_ (by decide) (ht _ (by decide +kernel)) (ht _ (by decide +kernel)) _ (.inl rfl), _, rfl⟩,
    ⟨⟨[47], -1, 2, 2, 16384, ⟨wordsSimple⟩, ⟨-1, 1⟩⟩, C48_roundtrip _ ?_ (by decide) (ht _ (by decide +kernel)) (ht _ (by decide +kernel)) _ (.inl rfl), rfl⟩⟩
  all_goals exact ⟨⟨by decide, by decide⟩, ⟨by decide, by decide⟩, ⟨by decide, by decide⟩, ⟨by decide, by decide⟩, ⟨by decide, by decide⟩, ⟨by decide, by decide⟩⟩

/-- With encoding/json as the codec the configurations that the theorems about sessions and queries speak of are those with a root that is valid UTF-8
and with reasonable numbers. -/
theorem usable_json (c : Config) (h : Ints c) (hcons : Consistent c) (h1 : 0 < c.numShards) (h2 : c.numShards < 2 ^ 32) (h3 : 0 < c.numShatters)
    (h4 : 1 ≤ c.docFlushRate) (h6 : IsText c.indexRoot) : Usable codec c where
  cons := hcons
  seqSmall := h.seqLen.2
  shards := h1
  shardsSmall := h2
  shatters := h3
  flush := h4
  codec := by
    show unmarshal (marshal c ++ [10]) = .ok c
    rw [unmarshal_marshal c h, if_pos (by decide), cleanConfig_valid h6 (by rw [hcons.tok, isText_iff]; decide)]

/-- **C48.**  What `CreateIndexer` makes of a root with a valid name and a number of shards is a configuration that can be written and read back, and with
which every history of sessions can be run. -/
theorem C48_created (cwd root : Bytes) (n : Int) (h1 : 0 < n) (h2 : n < 2 ^ 32) (h3 : IsText (absPath cwd root)) :
    ∃ c, Config.new cwd root n 10 = .ok c ∧ c.indexRoot = absPath cwd root ∧ c.numShards = n ∧ Usable codec c := by
  obtain ⟨c, h4, h5⟩ := C13_nonvacuous cwd root n
  have h6 := h4
  injection h4 with h4
  subst h4
  exact ⟨_, h6, rfl, rfl, usable_json _
    ⟨⟨by show (-2 ^ 63 : Int) ≤ 10; decide, by show (10 : Int) < 2 ^ 63; decide⟩, ⟨by show -2 ^ 63 ≤ n; omega, by show n < 2 ^ 63; omega⟩,
      ⟨by show (-2 ^ 63 : Int) ≤ 2; decide, by show (2 : Int) < 2 ^ 63; decide⟩, ⟨by show (-2 ^ 63 : Int) ≤ 16384; decide, by show (16384 : Int) < 2 ^ 63; decide⟩,
      ⟨by show (-2 ^ 63 : Int) ≤ 10; decide, by show (10 : Int) < 2 ^ 63; decide⟩, ⟨by show (-2 ^ 63 : Int) ≤ 1; decide, by show (1 : Int) < 2 ^ 63; decide⟩⟩
    h5 h1 h2 (by show (0 : Int) < 2; decide) (by show (1 : Int) ≤ 16384; decide) h3⟩

example : IsText (absPath "/home/me".toUTF8.toList "idx".toUTF8.toList) := isText_iff.mpr (by decide +kernel)

end Dupi.Props
