import Verif.Props.AnyConfig
import Verif.Proof.SchedStuck
import Verif.Proof.CrashRun
import Verif.Proof.Utf8Char
/-! # C84: the configurations with which an index can be made and used -/

namespace Dupi.Props
open Dupi.Spec

/-! ### A text with any number of words -/

/-- "a a a ... " -/
def aaText : Nat → List Char
  | 0 => []
  | n + 1 => 'a' :: ' ' :: aaText n

theorem isWordChar_a (u : Uni) : isWordChar u 'a' = true := by
  show (u.isLetter 97 || u.isDigit 97) = true
  rw [u.letter 97 (by decide)]; rfl

theorem isWordChar_space (u : Uni) : isWordChar u ' ' = false := by
  show (u.isLetter 32 || u.isDigit 32) = false
  rw [u.letter 32 (by decide), u.digit 32 (by decide)]; rfl

theorem runs_aa (u : Uni) (n : Nat) : ∃ gs, runs (isWordChar u) (aaText (n + 1)).dropLast = (true, ['a']) :: gs ∧
    (((true, ['a']) :: gs).filter (·.1)).length = n + 1 := by
  induction n with
  | zero => exact ⟨[], by simp [aaText, runs, isWordChar_a], by simp⟩
  | succ n ih =>
    obtain ⟨gs, h1, h2⟩ := ih
    refine ⟨(false, [' ']) :: (true, ['a']) :: gs, ?_, ?_⟩
    · have : (aaText (n + 1 + 1)).dropLast = 'a' :: ' ' :: (aaText (n + 1)).dropLast := by
        rw [aaText]
        rw [List.dropLast_cons_of_ne_nil (by simp), List.dropLast_cons_of_ne_nil (by simp [aaText])]
      rw [this, runs, runs, h1]
      simp [isWordChar_a, isWordChar_space]
    · rw [List.filter_cons_of_pos (by simp), List.filter_cons_of_neg (by simp), List.length_cons, h2]

/-- a text with `n` words -/
def wordsText (n : Nat) : Bytes := utf8 (aaText n)

theorem words_wordsText (u : Uni) (n : Nat) : (words u (wordsText n)).length = n := by
  rw [words_length]
  unfold wordChars wordsText
  rw [text_utf8]
  cases n with
  | zero => simp [aaText, runs]
  | succ n =>
    obtain ⟨gs, h1, h2⟩ := runs_aa u n
    simp only [h1, List.length_map]
    exact h2

theorem toks_wordsText (u : Uni) (n : Nat) (start : UInt32) :
    ∃ toks, Token.tokenize u [] (wordsText n) start = .ok toks ∧ (wordToks toks).length = n := by
  obtain ⟨toks, h1, h2⟩ := tokenize_words u (wordsText n) start
  refine ⟨toks, h1, ?_⟩
  have := congrArg List.length h2
  rwa [List.length_map, words_wordsText] at this

/-! ### The computations that fail -/

/-- there is no shard to put a post in -/
theorem loop_no_shard (u : Uni) (s : Int) (did : UInt32) (toks : List Tok) : ∀ (b : Blotter) (w : Int) (r : Blotter × List (List Post)),
    w ≤ s → Shatter.loop u s did b w [] toks = .ok r → w + (wordToks toks).length ≤ s := by
  induction toks with
  | nil => intro b w r hw _; simpa [wordToks] using hw
  | cons tok toks ih =>
    intro b w r hw h
    cases ht : tok.tag with
    | word =>
      rw [show (wordToks (tok :: toks)).length = (wordToks toks).length + 1 by simp [wordToks, ht]]
      simp only [Shatter.loop, ht, bind, Except.bind] at h
      cases hb : b.blot u tok.lit with
      | error e => rw [hb] at h; cases h
      | ok v =>
        rw [hb] at h
        simp only at h
        by_cases hw1 : w + 1 > s
        · rw [if_pos hw1] at h
          cases h
        · rw [if_neg hw1] at h
          have := ih v.2 (w + 1) r (by omega) h
          omega
    | _ =>
      rw [show wordToks (tok :: toks) = wordToks toks by simp [wordToks, ht]]
      simp only [Shatter.loop, ht] at h
      exact ih b w r hw h

/-- a blotter that always panics -/
theorem loop_no_blot (u : Uni) (s : Int) (did : UInt32) (b : Blotter) (hb : ∀ x, b.blotHash x = panic') (toks : List Tok) :
    ∀ (w : Int) (d : List (List Post)) (r : Blotter × List (List Post)),
    Shatter.loop u s did b w d toks = .ok r → wordToks toks = [] := by
  induction toks with
  | nil => intro w d r _; rfl
  | cons tok toks ih =>
    intro w d r h
    cases ht : tok.tag with
    | word =>
      simp only [Shatter.loop, ht, bind, Except.bind, Blotter.blot, hb, panic'] at h
      cases h
    | _ =>
      rw [show wordToks (tok :: toks) = wordToks toks by simp [wordToks, ht]]
      simp only [Shatter.loop, ht] at h
      exact ih w d r h

theorem compute_no_shard (u : Uni) (s : Int) (n : Nat) (h1 : 0 ≤ s) (h : s < n) (b : Shatterer) (did off : UInt32) (r : Shatterer × List (List Post)) :
    Shatter.compute u s 0 b did off (wordsText n) ≠ .ok r := by
  intro hr
  obtain ⟨toks, ht, hl⟩ := toks_wordsText u n off
  simp only [Shatter.compute, ht, bind, Except.bind] at hr
  have := loop_no_shard u s did toks b 0 r h1 hr
  omega

theorem compute_no_blot (u : Uni) (s : Int) (n m : Nat) (b : Shatterer) (hb : ∀ x, b.blotHash x = panic') (did off : UInt32)
    (r : Shatterer × List (List Post)) : Shatter.compute u s m b did off (wordsText (n + 1)) ≠ .ok r := by
  intro hr
  obtain ⟨toks, ht, hl⟩ := toks_wordsText u (n + 1) off
  simp only [Shatter.compute, ht, bind, Except.bind] at hr
  have := loop_no_blot u s did b hb toks 0 _ r hr
  rw [this] at hl
  simp at hl

theorem fromConfig_zero (c : BlotConfig) (h : c.seqLen = 0) {b : Blotter} (hb : Blotter.fromConfig c = .ok b) : ∀ x, b.blotHash x = panic' := by
  unfold Blotter.fromConfig Circ.new at hb
  rw [h] at hb
  by_cases h1 : c.interleave < 1
  · rw [if_pos h1] at hb; cases hb
  · rw [if_neg h1] at hb
    by_cases h2 : c.interleave = 1
    · rw [if_pos h2] at hb
      cases hb
      intro x; rfl
    · rw [if_neg h2] at hb
      cases hb
      intro x
      obtain ⟨m, hm⟩ : ∃ m, c.interleave.toNat = m + 1 := ⟨c.interleave.toNat - 1, by omega⟩
      rw [hm]; rfl

/-! ### Creating -/

/-- when `IndexerFromConfig` returns an indexer, and which -/
theorem create_ok {c : Config} {x : Indexer} (h : Indexer.create c = .ok x) :
    0 ≤ c.numShards ∧ c.tokenConfig.name = wordsSimple ∧ 1 ≤ c.docFlushRate ∧ x.config = c ∧ x.shards.length = c.numShards.toNat ∧
    x.front.fnames = Fnames.newFnames ∧ x.front.file = none ∧
    (0 < c.numShatters → ∃ b, Blotter.fromConfig c.blotConfig = .ok b ∧ x.blotters = List.replicate c.numShatters.toNat b) ∧
    (c.numShatters ≤ 0 → x.blotters = []) := by
  unfold Indexer.create Indexer.makeShards at h
  by_cases h1 : c.numShards < 0
  · rw [if_pos h1] at h; cases h
  · rw [if_neg h1] at h
    simp only [bind, Except.bind, TokenConfig.fromConfig] at h
    by_cases h2 : c.tokenConfig.name = wordsSimple
    · rw [if_pos h2] at h
      simp only [Dmd.newAdder] at h
      by_cases h3 : c.docFlushRate < 1
      · rw [if_pos h3] at h; cases h
      · rw [if_neg h3] at h
        simp only [Indexer.makeBlotters, bind, Except.bind, pure, Except.pure] at h
        by_cases h4 : c.numShatters ≤ 0
        · rw [if_pos h4] at h
          cases h
          exact ⟨by omega, h2, by omega, rfl, by simp, rfl, rfl, fun _ => by omega, fun _ => rfl⟩
        · rw [if_neg h4] at h
          cases hb : Blotter.fromConfig c.blotConfig with
          | error e => rw [hb] at h; cases h
          | ok b =>
            rw [hb] at h
            cases h
            exact ⟨by omega, h2, by omega, rfl, by simp, rfl, rfl, fun _ => ⟨b, rfl, rfl⟩, fun _ => by omega⟩
    · rw [if_neg h2] at h; cases h

theorem fromConfig_ok {c : BlotConfig} {b : Blotter} (h : Blotter.fromConfig c = .ok b) : 0 < c.interleave ∧ 0 ≤ c.seqLen := by
  unfold Blotter.fromConfig Circ.new at h
  by_cases h1 : c.interleave < 1
  · rw [if_pos h1] at h; cases h
  · rw [if_neg h1] at h
    refine ⟨by omega, ?_⟩
    by_cases h2 : c.seqLen < 0
    · rw [if_pos h2] at h
      by_cases h3 : c.interleave = 1
      · rw [if_pos h3] at h; cases h
      · rw [if_neg h3] at h; cases h
    · omega

theorem create_shards {c : Config} {x : Indexer} (h : Indexer.create c = .ok x) {s : ShardIndexer} (hs : s ∈ x.shards) :
    s = ShardIndexer.initCreate 65536 := by
  unfold Indexer.create at h
  simp only [bind, Except.bind, pure, Except.pure] at h
  cases h1 : Indexer.makeShards c with
  | error e => rw [h1] at h; cases h
  | ok n =>
    rw [h1] at h
    simp only at h
    cases h2 : c.tokenConfig.fromConfig with
    | error e => rw [h2] at h; cases h
    | ok _ =>
      rw [h2] at h
      simp only at h
      cases h3 : Dmd.newAdder none c.docFlushRate with
      | error e => rw [h3] at h; cases h
      | ok a =>
        rw [h3] at h
        simp only at h
        cases h4 : Indexer.makeBlotters c with
        | error e => rw [h4] at h; cases h
        | ok bs =>
          rw [h4] at h
          cases h
          exact List.eq_of_mem_replicate hs

/-! ### Which configurations work -/

/-- An index can be made with the configuration: an indexer is created, and whatever documents are added (as long as the numbers stored fit their
widths), the session can come to its end and the index can be opened again. -/
def Works (u : Uni) (J : CfgCodec) (c : Config) : Prop :=
  ∃ x, Indexer.create c = .ok x ∧ ∀ (cwd : Bytes) (docs : List Doc), Fits u c (added cwd docs) →
    ∃ d, Indexer.Session u J cwd x docs Dir.empty d ∧ ∃ y, Indexer.open J d = .ok y

/-- What a configuration has to satisfy; only the fourth condition is looked at by `check`, and that not by `IndexerFromConfig`. -/
structure Sound (c : Config) : Prop where
  tok : c.tokenConfig.name = wordsSimple
  seq : 0 < c.blotConfig.seqLen
  inter : 0 < c.blotConfig.interleave
  prod : c.seqLen = c.blotConfig.interleave * c.blotConfig.seqLen
  shards : 0 < c.numShards
  shatters : 0 < c.numShatters
  flush : 1 ≤ c.docFlushRate

/-- one document with the text `dat` -/
def oneDoc (dat : Bytes) : List Doc := [⟨[47], 0, 0, some dat⟩]

theorem blots_length (n k : Nat) (hs : List UInt32) : (blots n k hs).length = hs.length - n * k := by simp [blots]

theorem oneDoc_fits (u : Uni) (c : Config) (n : Nat) (h : n - c.blotConfig.seqLen.toNat * c.blotConfig.interleave.toNat ≤ 1) :
    Fits u c (added [47] (oneDoc (wordsText n))) := by
  have hp : placeName (place [47] [47]) = [47] := by decide
  refine ⟨by simp [added, oneDoc], by simp only [added, oneDoc, List.map_cons, List.map_nil, hp]; decide, ?_⟩
  simp only [added, oneDoc, List.map_cons, List.map_nil, numBlots, List.sum_cons, List.sum_nil, Option.getD_some, blotsOf_eq, blots_length, List.length_map,
    words_wordsText]
  omega

theorem adds_oneDoc {x : Indexer} {cwd dat : Bytes} {rs : List Front.Req} {front : Front}
    (h : x.front.adds cwd (oneDoc dat) = .ok (rs, front)) : ∃ did, rs = [(did, 0, dat)] := by
  simp only [oneDoc, Front.adds, bind, Except.bind, pure, Except.pure] at h
  cases h1 : x.front.add cwd ⟨[47], 0, 0, some dat⟩ with
  | error e => rw [h1] at h; cases h
  | ok v => rw [h1] at h; cases h; exact ⟨v.1, rfl⟩

/-- If no shatterer can compute the document, a session adding it does not end. -/
theorem no_session {u : Uni} {J : CfgCodec} {c : Config} {x : Indexer} (hx : Indexer.create c = .ok x) {cwd dat : Bytes}
    (hc : ∀ b ∈ x.blotters, ∀ did r, Shatter.compute u c.seqLen x.shards.length b did 0 dat ≠ .ok r) {d : Dir} :
    ¬ Indexer.Session u J cwd x (oneDoc dat) Dir.empty d := by
  rintro ⟨h1, h2, h3, _⟩
  obtain ⟨did, rfl⟩ := adds_oneDoc h1
  refine Sched.never_done (fun w hw r hr => ?_) h2 h3
  have hw : w < x.blotters.length := hw
  have hb : x.blotters.getD w (.circ ⟨[], 0, 0⟩) ∈ x.blotters := by
    rw [List.getD_eq_getElem?_getD, List.getElem?_eq_getElem hw, Option.getD_some]
    exact List.getElem_mem hw
  simp only [Indexer.params, bind, Except.bind, (create_ok hx).2.2.2.1] at hr
  cases hk : Shatter.compute u c.seqLen x.shards.length (x.blotters.getD w (.circ ⟨[], 0, 0⟩)) did 0 dat with
  | ok v => exact hc _ hb _ _ hk
  | error e => rw [hk] at hr; cases hr

theorem session_cfg {u : Uni} {J : CfgCodec} {x : Indexer} {cwd : Bytes} {docs : List Doc} {d : Dir}
    (h : Indexer.Session u J cwd x docs Dir.empty d) : d .cfg = some (J.enc x.config ++ [10]) := by
  obtain ⟨h1, h2, h3, h4⟩ := h
  rename_i rs front k t
  unfold Indexer.close at h4
  obtain ⟨_, g⟩ := closeShards_spec _ _ h4
  rw [g _ (fun i hi => ⟨by simp, by simp⟩)]
  cases Dmd.close front.dmds front.file <;> simp [Dir.set, Config.writeTo, Dir.empty, writeAt]

theorem open_check {J : CfgCodec} {c : Config} (hJ : J.dec (J.enc c ++ [10]) = .ok c) {d : Dir} (hd : d .cfg = some (J.enc c ++ [10])) :
    (∃ y, Indexer.open J d = .ok y) → c.check = .ok () := by
  rintro ⟨y, hy⟩
  simp only [Indexer.open, Config.readFrom, Dir.read, hd, hJ, bind, Except.bind] at hy
  cases hc : c.check with
  | ok v => rfl
  | error e => rw [hc] at hy; cases hy

/-- **C84, as it is.**  An index can be made with a configuration exactly if it is sound. -/
theorem C84_iff_partial (u : Uni) (J : CfgCodec) (c : Config) (hJ : J.dec (J.enc c ++ [10]) = .ok c) (hs : c.seqLen < 2 ^ 63)
    (hp : c.blotConfig.interleave * c.blotConfig.seqLen < 2 ^ 63) (hn : c.numShards < 2 ^ 32) : Works u J c ↔ Sound c := by
  constructor
  · rintro ⟨x, hx, hw⟩
    obtain ⟨h1, h2, h3, h4, h5, h6, h7, h8, h9⟩ := create_ok hx
    have hsh : 0 < c.numShatters := by
      apply Classical.byContradiction
      intro hsh
      obtain ⟨d, ⟨g1, g2, g3, _⟩, _⟩ := hw [47] (oneDoc (wordsText 0)) (oneDoc_fits u c 0 (by omega))
      obtain ⟨did, rfl⟩ := adds_oneDoc g1
      have := Sched.never_taken (show (x.params u).nw = 0 by simp [Indexer.params, h9 (by omega)]) g2
      rw [this] at g3
      cases g3
    obtain ⟨b, hb, hbs⟩ := h8 hsh
    obtain ⟨hi, hq⟩ := fromConfig_ok hb
    have hmem : ∀ b' ∈ x.blotters, b' = b := by
      intro b' h
      rw [hbs] at h
      exact (List.mem_replicate.mp h).2
    have hq' : 0 < c.blotConfig.seqLen := by
      apply Classical.byContradiction
      intro hq'
      obtain ⟨d, hd, _⟩ := hw [47] (oneDoc (wordsText 1)) (oneDoc_fits u c 1 (by omega))
      refine no_session hx (fun b' hb' did r => ?_) hd
      rw [hmem b' hb']
      exact compute_no_blot u _ 0 _ b (fromConfig_zero _ (by omega) hb) did 0 r
    have hprod : c.seqLen = c.blotConfig.interleave * c.blotConfig.seqLen := by
      obtain ⟨d, hd, hy⟩ := hw [47] [] ⟨by simp [added], by decide, by simp [added, numBlots]⟩
      have hk := open_check hJ (by rw [session_cfg hd, h4]) hy
      have hpos : 0 < c.blotConfig.interleave * c.blotConfig.seqLen := Int.mul_pos hi hq'
      unfold Config.check at hk
      by_cases e : c.seqLen ≠ u64ToI64 (i64ToU64 (c.blotConfig.interleave * c.blotConfig.seqLen))
      · rw [if_pos e] at hk; cases hk
      · rw [Classical.not_not.mp e]
        generalize c.blotConfig.interleave * c.blotConfig.seqLen = p at hpos hp
        unfold u64ToI64 i64ToU64
        rw [UInt64.toNat_ofNat']
        have e : ((p % 2 ^ 64).toNat % 2 ^ 64 : Nat) = p.toNat := by omega
        rw [e, if_pos (by omega)]; omega
    have hss : 0 < c.numShards := by
      apply Classical.byContradiction
      intro hss
      have hpos : 0 < c.seqLen := by rw [hprod]; exact Int.mul_pos hi hq'
      have hpn : c.blotConfig.seqLen.toNat * c.blotConfig.interleave.toNat = c.seqLen.toNat := by
        rw [hprod, Int.toNat_mul (by omega) (by omega), Nat.mul_comm]
      obtain ⟨d, hd, _⟩ := hw [47] (oneDoc (wordsText (c.seqLen.toNat + 1))) (oneDoc_fits u c _ (by omega))
      refine no_session hx (fun b' hb' did r => ?_) hd
      rw [show x.shards.length = 0 by omega]
      exact compute_no_shard u _ _ (by omega) (by omega) b' did 0 r
    exact ⟨h2, hq', hi, hprod, hss, hsh, h3⟩
  · intro h
    have hU : Usable J c := ⟨⟨h.seq, h.inter, h.prod, h.tok⟩, hs, h.shards, hn, h.shatters, h.flush, hJ⟩
    obtain ⟨x, hx, hr⟩ := create_rep (u := u) hU
    refine ⟨x, hx, fun cwd docs hf => ?_⟩
    obtain ⟨d, hd⟩ := Session.exists hU hr cwd docs (by simpa using hf) (d := Dir.empty) (.inl rfl)
    have hrep := Session.rep hU hr cwd docs (by simpa using hf) (.inl rfl) hd
    obtain ⟨y, hy, _⟩ := open_rep hU hrep (by simpa using hf)
    exact ⟨d, hd, y, hy⟩

/-! ### What happens with the others -/

/-- **C84 fails.**  With no shatterer an indexer is created, but nobody ever takes the first document: the call of `Add` never returns. -/
theorem C84_false_shatters (u : Uni) (c : Config) (x : Indexer) (hx : Indexer.create c = .ok x) (hc : c.numShatters ≤ 0) (r : Front.Req)
    (rs : List Front.Req) (k : Nat) (t : Sched.St Blotter ShardIndexer (UInt32 × Bytes) Post) (h : Sched.Steps (x.params u) k (x.start (r :: rs)) t) :
    t.client = .add (r :: rs) := by
  obtain ⟨_, _, _, _, _, _, _, _, h9⟩ := create_ok hx
  rw [Sched.never_taken (show (x.params u).nw = 0 by simp [Indexer.params, h9 hc]) h]
  rfl

/-- A panic of the shatterer that gets the first document is a crash of the program. -/
theorem crash_first {u : Uni} {c : Config} {x : Indexer} (hx : Indexer.create c = .ok x) (hs : 0 < c.numShatters) (did : UInt32) (dat : Bytes)
    (hc : ∀ b ∈ x.blotters, ∀ r, Shatter.compute u c.seqLen x.shards.length b did 0 dat ≠ .ok r) :
    ∃ k t, Sched.Steps (x.params u) k (x.start [(did, 0, dat)]) t ∧ Sched.Crashes (x.params u) t := by
  obtain ⟨_, _, _, h4, _, _, _, h8, _⟩ := create_ok hx
  obtain ⟨b, hb, hbs⟩ := h8 hs
  have hw : 0 < (x.params u).nw := by
    show 0 < x.blotters.length
    rw [hbs, List.length_replicate]; omega
  have hw' : 0 < x.blotters.length := hw
  refine ⟨1, _, .step .refl (.give (w := 0) rfl hw rfl), ?_⟩
  have hm : x.blotters.getD 0 (.circ ⟨[], 0, 0⟩) ∈ x.blotters := by
    rw [List.getD_eq_getElem?_getD, List.getElem?_eq_getElem hw', Option.getD_some]
    exact List.getElem_mem hw'
  cases hk : Shatter.compute u c.seqLen x.shards.length (x.blotters.getD 0 (.circ ⟨[], 0, 0⟩)) did 0 dat with
  | ok v => exact absurd hk (hc _ hm v)
  | error e =>
    refine .compute (w := 0) (did := did) (d := (0, dat)) (e := e) hw (by simp [Sched.St.setW, Sched.upd_same]) ?_
    simp only [Sched.St.setW, Sched.upd_same, Indexer.params, Indexer.start, Sched.init, bind, Except.bind, h4, hk]

/-- **C84 fails.**  With no shard the first document that has a blot makes a shatterer panic. -/
theorem C84_false_shards (u : Uni) (c : Config) (x : Indexer) (hx : Indexer.create c = .ok x) (hs : 0 < c.numShatters) (hc : c.numShards = 0)
    (hq : 0 ≤ c.seqLen) (did : UInt32) (n : Nat) (hn : c.seqLen < n) :
    ∃ k t, Sched.Steps (x.params u) k (x.start [(did, 0, wordsText n)]) t ∧ Sched.Crashes (x.params u) t := by
  obtain ⟨_, _, _, _, h5, _⟩ := create_ok hx
  refine crash_first hx hs did _ fun b _ r => ?_
  rw [show x.shards.length = 0 by omega]
  exact compute_no_shard u _ _ hq hn b did 0 r

/-- **C84 fails.**  With sequences of no words the first word makes a shatterer panic. -/
theorem C84_false_seq (u : Uni) (c : Config) (x : Indexer) (hx : Indexer.create c = .ok x) (hs : 0 < c.numShatters) (hc : c.blotConfig.seqLen = 0)
    (did : UInt32) (n : Nat) : ∃ k t, Sched.Steps (x.params u) k (x.start [(did, 0, wordsText (n + 1))]) t ∧ Sched.Crashes (x.params u) t := by
  obtain ⟨_, _, _, _, _, _, _, h8, _⟩ := create_ok hx
  obtain ⟨b, hb, hbs⟩ := h8 hs
  refine crash_first hx hs did _ fun b' hb' r => ?_
  rw [hbs] at hb'
  rw [(List.mem_replicate.mp hb').2]
  exact compute_no_blot u _ n _ b (fromConfig_zero _ hc hb) did 0 r

/-- **C84 fails.**  `IndexerFromConfig` does not call `check`: with a configuration that fails it, an indexer is created and closed without an
error, and whatever was added, the index can never be opened. -/
theorem C84_false_check (u : Uni) (J : CfgCodec) (c : Config) (hJ : J.dec (J.enc c ++ [10]) = .ok c) (x : Indexer) (hx : Indexer.create c = .ok x)
    (hc : c.check ≠ .ok ()) :
    (∀ cwd, ∃ d, Indexer.Session u J cwd x [] Dir.empty d) ∧
    ∀ cwd docs d, Indexer.Session u J cwd x docs Dir.empty d → ¬ ∃ y, Indexer.open J d = .ok y := by
  obtain ⟨_, _, _, h4, _⟩ := create_ok hx
  refine ⟨fun cwd => ?_, fun cwd docs d hd hy => hc (open_check hJ (by rw [session_cfg hd, h4]) hy)⟩
  obtain ⟨k, t, g1, g2, g3⟩ := Sched.idle_done (x.params u) (fun w => x.blotters.getD w (.circ ⟨[], 0, 0⟩)) (fun j => x.shards.getD j ⟨[], []⟩)
    (Dmd.last x.front.dmds)
  have hsh : ∀ j, j < x.shards.length → ShardRep 65536 ((t.servers j).shard) (fun _ => []) := by
    intro j hj
    rw [g3, List.getD_eq_getElem?_getD, List.getElem?_eq_getElem hj, Option.getD_some, create_shards hx (List.getElem_mem hj)]
    exact initCreate_rep 65536
  obtain ⟨d, hd, _⟩ := closeShards_rep (fun j => (t.servers j).shard) (fun _ _ => []) x.shards.length hsh
    (match Dmd.close x.front.dmds x.front.file with
      | some b => ((x.config.writeTo J Dir.empty).set .fnm (Fnames.write x.front.fnames)).set .dmd b
      | none => (x.config.writeTo J Dir.empty).set .fnm (Fnames.write x.front.fnames))
  exact ⟨d, .run rfl g1 g2 hd⟩

/-! ### What is looked at when an index is created -/

/-- **C84.**  `IndexerFromConfig` returns an indexer exactly under these conditions: the blotter's configuration is looked at only if there is a
shatterer, and the overall sequence length never. -/
theorem C84_create (c : Config) : (∃ x, Indexer.create c = .ok x) ↔ 0 ≤ c.numShards ∧ c.tokenConfig.name = wordsSimple ∧ 1 ≤ c.docFlushRate ∧
    (0 < c.numShatters → 0 < c.blotConfig.interleave ∧ 0 ≤ c.blotConfig.seqLen) := by
  constructor
  · rintro ⟨x, hx⟩
    obtain ⟨h1, h2, h3, _, _, _, _, h8, _⟩ := create_ok hx
    refine ⟨h1, h2, h3, fun h => ?_⟩
    obtain ⟨b, hb, _⟩ := h8 h
    exact fromConfig_ok hb
  · rintro ⟨h1, h2, h3, h4⟩
    have hb : ∃ bs, Indexer.makeBlotters c = .ok bs := by
      unfold Indexer.makeBlotters
      by_cases h : c.numShatters ≤ 0
      · exact ⟨[], by rw [if_pos h]; rfl⟩
      · obtain ⟨g1, g2⟩ := h4 (by omega)
        have : ∃ b, Blotter.fromConfig c.blotConfig = .ok b := by
          unfold Blotter.fromConfig Circ.new
          rw [if_neg (show ¬ c.blotConfig.interleave < 1 by omega), if_neg (show ¬ c.blotConfig.seqLen < 0 by omega)]
          by_cases g : c.blotConfig.interleave = 1
          · rw [if_pos g]; exact ⟨_, rfl⟩
          · rw [if_neg g]; exact ⟨_, rfl⟩
        obtain ⟨b, hb⟩ := this
        exact ⟨_, by rw [if_neg h, hb]; rfl⟩
    obtain ⟨bs, hb⟩ := hb
    exact ⟨_, by
      simp only [Indexer.create, Indexer.makeShards, if_neg (show ¬ c.numShards < 0 by omega), TokenConfig.fromConfig, h2, if_true, Dmd.newAdder,
        if_neg (show ¬ c.docFlushRate < 1 by omega), hb, bind, Except.bind, pure, Except.pure]; rfl⟩

/-- There are configurations of every kind: one with which an index can be made, and one for each way in which that goes wrong. -/
theorem C84_nonvacuous : Works asciiUni ⟨fun _ => [], fun _ => .ok exQConfig⟩ exQConfig ∧
    (∃ x, Indexer.create { exQConfig with numShatters := 0 } = .ok x) ∧ (∃ x, Indexer.create { exQConfig with numShards := 0 } = .ok x) ∧
    (∃ x, Indexer.create { exQConfig with seqLen := 0, blotConfig := ⟨0, 1⟩ } = .ok x) ∧
    (∃ x, Indexer.create { exQConfig with seqLen := 7 } = .ok x) ∧ { exQConfig with seqLen := 7 }.check ≠ .ok () := by
  refine ⟨(C84_iff_partial _ _ _ rfl (by decide) (by decide) (by decide)).mpr ⟨rfl, by decide, by decide, by decide, by decide, by decide, by decide⟩,
    (C84_create _).mpr ?_, (C84_create _).mpr ?_, (C84_create _).mpr ?_, (C84_create _).mpr ?_, ?_⟩
  all_goals simp [exQConfig, Config.check, wordsSimple, fail]
  all_goals decide

end Dupi.Props
