import Verif.Proof.AnyAppend
import Verif.Props.AnyDir
import Verif.Props.CutAppend
/-! # C116: opening any directory to append -/

namespace Dupi.Props
open Spec

/-- the flush rate is one the buffer of records can be made with -/
def FlushFine (d : Dir) (c : Config) : Prop :=
  1 ≤ c.docFlushRate ∨ c.docFlushRate = 0 ∧ ∃ b, d .dmd = some b ∧ (b.length / 12) % 2 ^ 32 ≠ 0

theorem newAdder_exact (d : Dir) (c : Config) : (FlushFine d c → ∃ a, Dmd.newAdder (d .dmd) c.docFlushRate = .ok a) ∧
    (¬ FlushFine d c → Dmd.newAdder (d .dmd) c.docFlushRate = .error .panic) := by
  unfold FlushFine Dmd.newAdder
  cases hd : d .dmd with
  | none =>
    simp only []
    constructor
    · rintro (h | ⟨_, b, h, _⟩)
      · rw [if_neg (by omega)]; exact ⟨_, rfl⟩
      · cases h
    · intro h; rw [if_pos (by have := fun g => h (.inl g); omega)]
  | some b =>
    have hz : UInt32.ofNat (b.length / Dmd.rcdSize) = 0 ↔ (b.length / 12) % 2 ^ 32 = 0 := by
      rw [← UInt32.toNat_inj, UInt32.toNat_ofNat']
      exact Iff.rfl
    simp only []
    by_cases h0 : (b.length / 12) % 2 ^ 32 = 0
    · rw [if_pos (hz.mpr h0)]
      constructor
      · rintro (h | ⟨_, b', h, h'⟩)
        · rw [if_neg (by omega)]; exact ⟨_, rfl⟩
        · injection h with h; subst h; exact absurd h0 h'
      · intro h; rw [if_pos (by have := fun g => h (.inl g); omega)]
    · rw [if_neg (fun g => h0 (hz.mp g))]
      constructor
      · intro h; rw [if_neg (by omega)]; exact ⟨_, rfl⟩
      · intro h
        rw [if_pos (by
          have h1 : ¬ 1 ≤ c.docFlushRate := fun g => h (.inl g)
          have h2 : ¬ c.docFlushRate = 0 := fun g => h (.inr ⟨g, b, rfl, h0⟩)
          omega)]

theorem makeBlotters_exact (c : Config) :
    ((∃ bs, Indexer.makeBlotters c = .ok bs) ↔ c.numShatters ≤ 0 ∨ 1 ≤ c.blotConfig.interleave ∧ 0 ≤ c.blotConfig.seqLen) ∧
    (Indexer.makeBlotters c = .error .panic ↔ 0 < c.numShatters ∧ 1 ≤ c.blotConfig.interleave ∧ c.blotConfig.seqLen < 0) ∧
    Indexer.makeBlotters c ≠ .error .diverge := by
  unfold Indexer.makeBlotters Blotter.fromConfig Circ.new
  by_cases h1 : c.numShatters ≤ 0
  · rw [if_pos h1]
    exact ⟨⟨fun _ => .inl h1, fun _ => ⟨_, rfl⟩⟩, ⟨fun h => (by cases h), fun h => absurd h.1 (by omega)⟩, fun h => (by cases h)⟩
  · rw [if_neg h1]
    by_cases h2 : c.blotConfig.interleave < 1
    · rw [if_pos h2]
      exact ⟨⟨fun ⟨_, h⟩ => (by cases h), fun h => absurd h (by omega)⟩, ⟨fun h => (by cases h), fun h => absurd h (by omega)⟩, fun h => (by cases h)⟩
    · rw [if_neg h2]
      by_cases h3 : c.blotConfig.seqLen < 0
      · rw [if_pos h3]
        by_cases h4 : c.blotConfig.interleave = 1
        · rw [if_pos h4]
          exact ⟨⟨fun ⟨_, h⟩ => (by cases h), fun h => absurd h (by omega)⟩, ⟨fun _ => by omega, fun _ => rfl⟩, fun h => (by cases h)⟩
        · rw [if_neg h4]
          exact ⟨⟨fun ⟨_, h⟩ => (by cases h), fun h => absurd h (by omega)⟩, ⟨fun _ => by omega, fun _ => rfl⟩, fun h => (by cases h)⟩
      · rw [if_neg h3]
        by_cases h4 : c.blotConfig.interleave = 1
        · rw [if_pos h4]
          exact ⟨⟨fun _ => .inr ⟨by omega, by omega⟩, fun _ => ⟨_, rfl⟩⟩, ⟨fun h => (by cases h), fun h => absurd h (by omega)⟩, fun h => (by cases h)⟩
        · rw [if_neg h4]
          exact ⟨⟨fun _ => .inr ⟨by omega, by omega⟩, fun _ => ⟨_, rfl⟩⟩, ⟨fun h => (by cases h), fun h => absurd h (by omega)⟩, fun h => (by cases h)⟩

/-- what is read before the shards -/
theorem open_begun {d : Dir} {c : Config} {ns : List (Bytes × Nat)} (h : Begun Json.codec d c ns) :
    ∃ a t, t.map Fnames.says = ns ∧ Dmd.newAdder (d .dmd) c.docFlushRate = .ok a ∧ Indexer.open Json.codec d =
      (Indexer.openShards d c.numShards.toNat 0).bind fun xs => (Indexer.makeBlotters c).bind fun bs => .ok ⟨c, ⟨t, a, d .dmd⟩, bs, xs⟩ := by
  obtain ⟨h1, h2, h3, ⟨f, h4, h5⟩, h6⟩ := h
  obtain ⟨a, ha⟩ := (newAdder_exact d c).1 h3
  obtain ⟨t, t1, t2⟩ := Fnames.read_of_table h5
  refine ⟨a, t, t2, ha, ?_⟩
  simp only [Indexer.open, bind, Except.bind, pure, Except.pure, h1, Indexer.makeShards]
  rw [if_neg (by omega)]
  simp only [ha, Dir.read, h4, t1, TokenConfig.fromConfig, if_pos h6]

/-- what stops it before the shards -/
theorem open_not_begun (d : Dir) : (∃ c ns, Begun Json.codec d c ns) ∨
    ((∃ c, Config.readFrom Json.codec d = .ok c ∧ (c.numShards < 0 ∨ ¬ FlushFine d c ∨ ∃ f, d .fnm = some f ∧ StrayFile f)) ∧ Indexer.open Json.codec d = .error .panic) ∨
    ((¬ ∃ c, Config.readFrom Json.codec d = .ok c ∧ (c.numShards < 0 ∨ ¬ FlushFine d c ∨ ∃ f, d .fnm = some f ∧ StrayFile f)) ∧ Errs (Indexer.open Json.codec d)) := by
  rcases readFrom_tame d with ⟨c, h1⟩ | ⟨e, h1⟩
  · have hun : ∀ c', Config.readFrom Json.codec d = .ok c' → c' = c := fun c' g => by rw [h1] at g; injection g with g; exact g.symm
    by_cases h2 : c.numShards < 0
    · refine .inr (.inl ⟨⟨c, h1, .inl h2⟩, ?_⟩)
      simp only [Indexer.open, bind, Except.bind, h1, Indexer.makeShards, if_pos h2]
    · by_cases h3 : FlushFine d c
      · obtain ⟨a, ha⟩ := (newAdder_exact d c).1 h3
        cases h4 : d .fnm with
        | none =>
          refine .inr (.inr ⟨?_, .notExist, ?_⟩)
          · rintro ⟨c', g1, g⟩
            obtain rfl := hun c' g1
            rcases g with g | g | ⟨f, g, _⟩
            · exact h2 g
            · exact g h3
            · cases g
          · simp only [Indexer.open, bind, Except.bind, h1, Indexer.makeShards, if_neg h2, ha, Dir.read, h4]
        | some f =>
          rcases Fnames.read_tri f with ⟨ns, h5⟩ | h5 | ⟨e, h5⟩
          · by_cases h6 : c.tokenConfig.name = wordsSimple
            · exact .inl ⟨c, ns, h1, by omega, h3, ⟨f, h4, h5⟩, h6⟩
            · obtain ⟨t, t1, _⟩ := Fnames.read_of_table h5
              refine .inr (.inr ⟨?_, .msg "unrecognized token config", ?_⟩)
              · rintro ⟨c', g1, g⟩
                obtain rfl := hun c' g1
                rcases g with g | g | ⟨f', g, g'⟩
                · exact h2 g
                · exact g h3
                · injection g with g; subst g
                  rw [Fnames.read_of_stray g'] at t1; cases t1
              · simp only [Indexer.open, bind, Except.bind, h1, Indexer.makeShards, if_neg h2, ha, Dir.read, h4, t1, TokenConfig.fromConfig, if_neg h6]
          · refine .inr (.inl ⟨⟨c, h1, .inr (.inr ⟨f, rfl, h5⟩)⟩, ?_⟩)
            simp only [Indexer.open, bind, Except.bind, h1, Indexer.makeShards, if_neg h2, ha, Dir.read, h4, Fnames.read_of_stray h5]
          · refine .inr (.inr ⟨?_, e, ?_⟩)
            · rintro ⟨c', g1, g⟩
              obtain rfl := hun c' g1
              rcases g with g | g | ⟨f', g, g'⟩
              · exact h2 g
              · exact g h3
              · injection g with g; subst g
                rw [Fnames.read_of_stray g'] at h5; cases h5
            · simp only [Indexer.open, bind, Except.bind, h1, Indexer.makeShards, if_neg h2, ha, Dir.read, h4, h5]
      · refine .inr (.inl ⟨⟨c, h1, .inr (.inl h3)⟩, ?_⟩)
        simp only [Indexer.open, bind, Except.bind, h1, Indexer.makeShards, if_neg h2, (newAdder_exact d c).2 h3]
  · refine .inr (.inr ⟨?_, e, ?_⟩)
    · rintro ⟨c', g1, _⟩; rw [h1] at g1; cases g1
    · simp only [Indexer.open, bind, Except.bind, h1]

theorem begun_not_stray {d : Dir} {c : Config} {ns : List (Bytes × Nat)} (h : Begun Json.codec d c ns) :
    ¬ (c.numShards < 0 ∨ ¬ FlushFine d c ∨ ∃ f, d .fnm = some f ∧ StrayFile f) := by
  obtain ⟨_, h2, h3, ⟨f, h4, h5⟩, _⟩ := h
  rintro (g | g | ⟨f', g, g'⟩)
  · omega
  · exact g h3
  · rw [h4] at g; injection g with g; subst g
    obtain ⟨t, t1, _⟩ := Fnames.read_of_table h5
    rw [Fnames.read_of_stray g'] at t1; cases t1

/-- **C116**, opening any directory to append.  It opens precisely if what is looked at before the shards is in order (`Begun`), each shard's two files are there with 65536
entries in the file of heads, from each head the links lead to a chunk whose link is -1, and the blotter can be made.  It panics precisely if a number in the configuration is
negative (or the flush rate is 0 and there is no record), a node of the path table has a parent that is none of the nodes, or the first list that has no last link leads to a huge
length.  It does not end precisely if the links of the first list that has no last link do not end.  In all other cases an error is returned. -/
theorem C116_open (d : Dir) :
    ((∃ x, Indexer.open Json.codec d = .ok x) ↔ ∃ c ns, Begun Json.codec d c ns ∧ (∀ i, i < c.numShards.toNat → ShardOpens d i) ∧
      (c.numShatters ≤ 0 ∨ 1 ≤ c.blotConfig.interleave ∧ 0 ≤ c.blotConfig.seqLen)) ∧
    (Indexer.open Json.codec d = .error .panic ↔ ∃ c, Config.readFrom Json.codec d = .ok c ∧
      (c.numShards < 0 ∨ ¬ (1 ≤ c.docFlushRate ∨ c.docFlushRate = 0 ∧ ∃ b, d .dmd = some b ∧ (b.length / 12) % 2 ^ 32 ≠ 0) ∨ (∃ f, d .fnm = some f ∧ StrayFile f) ∨
        ∃ ns, Begun Json.codec d c ns ∧ ((∃ i, i < c.numShards.toNat ∧ ShardStops LeadsHuge d i ∧ ∀ j, j < i → ShardOpens d j) ∨
          (∀ i, i < c.numShards.toNat → ShardOpens d i) ∧ 0 < c.numShatters ∧ 1 ≤ c.blotConfig.interleave ∧ c.blotConfig.seqLen < 0))) ∧
    (Indexer.open Json.codec d = .error .diverge ↔ ∃ c ns, Begun Json.codec d c ns ∧ ∃ i, i < c.numShards.toNat ∧ ShardStops Endless d i ∧ ∀ j, j < i → ShardOpens d j) ∧
    ((∃ x, Indexer.open Json.codec d = .ok x) ∨ Indexer.open Json.codec d = .error .panic ∨ Indexer.open Json.codec d = .error .diverge ∨ Errs (Indexer.open Json.codec d)) := by
  have hall : (∃ x, Indexer.open Json.codec d = .ok x) ∨ Indexer.open Json.codec d = .error .panic ∨ Indexer.open Json.codec d = .error .diverge ∨ Errs (Indexer.open Json.codec d) := by
    cases h : Indexer.open Json.codec d with
    | ok x => exact .inl ⟨x, rfl⟩
    | error e =>
      cases e with
      | err e => exact .inr (.inr (.inr ⟨e, rfl⟩))
      | panic => exact .inr (.inl rfl)
      | diverge => exact .inr (.inr (.inl rfl))
  by_cases hB : ∃ c ns, Begun Json.codec d c ns
  · obtain ⟨c, ns, hb⟩ := hB
    obtain ⟨a, t, ht, ha, ho⟩ := open_begun hb
    have hun : ∀ c', Config.readFrom Json.codec d = .ok c' → c' = c := fun c' g => by rw [hb.1] at g; injection g with g; exact g.symm
    obtain ⟨b1, b2, b3⟩ := makeBlotters_exact c
    have hok : (∃ xs, Indexer.openShards d c.numShards.toNat 0 = .ok xs) ↔ ∀ i, i < c.numShards.toNat → ShardOpens d i := by
      constructor
      · rintro ⟨xs, h⟩ i hi
        obtain ⟨g1, g2⟩ := (appendShards_ok d _ 0 xs).mp h
        rw [← shardOpens_iff]
        exact ⟨_, by simpa using g2 i _ (List.getElem?_eq_getElem (by rw [g1]; exact hi))⟩
      · intro h
        cases hx : Indexer.openShards d c.numShards.toNat 0 with
        | ok xs => exact ⟨xs, rfl⟩
        | error e =>
          obtain ⟨k, g1, g2, _⟩ := (appendShards_fault d e _ 0).mp hx
          obtain ⟨x, hx⟩ := (shardOpens_iff d k).mpr (h k g1)
          rw [Nat.zero_add, hx] at g2; cases g2
    have hft : ∀ F P, (∀ i, appendShard d i = .error F ↔ ShardStops P d i) → (Indexer.openShards d c.numShards.toNat 0 = .error F ↔
        ∃ i, i < c.numShards.toNat ∧ ShardStops P d i ∧ ∀ j, j < i → ShardOpens d j) := by
      intro F P hP
      rw [appendShards_fault]
      simp only [Nat.zero_add, hP, shardOpens_iff]
    have hpan := hft .panic LeadsHuge fun i => (shardInit_exact d i).2.1
    have hdiv := hft .diverge Endless fun i => (shardInit_exact d i).2.2
    have hopen : (∃ x, Indexer.open Json.codec d = .ok x) ↔ (∀ i, i < c.numShards.toNat → ShardOpens d i) ∧ (c.numShatters ≤ 0 ∨ 1 ≤ c.blotConfig.interleave ∧ 0 ≤ c.blotConfig.seqLen) := by
      rw [← hok, ← b1, ho]
      cases Indexer.openShards d c.numShards.toNat 0 with
      | error e => exact ⟨fun ⟨_, h⟩ => (by cases h), fun ⟨⟨_, h⟩, _⟩ => (by cases h)⟩
      | ok xs =>
        cases Indexer.makeBlotters c with
        | error e => exact ⟨fun ⟨_, h⟩ => (by cases h), fun ⟨_, ⟨_, h⟩⟩ => (by cases h)⟩
        | ok bs => exact ⟨fun _ => ⟨⟨xs, rfl⟩, ⟨bs, rfl⟩⟩, fun _ => ⟨_, rfl⟩⟩
    have hfault : ∀ F, Indexer.open Json.codec d = .error F ↔ Indexer.openShards d c.numShards.toNat 0 = .error F ∨
        (∃ xs, Indexer.openShards d c.numShards.toNat 0 = .ok xs) ∧ Indexer.makeBlotters c = .error F := by
      intro F
      rw [ho]
      cases Indexer.openShards d c.numShards.toNat 0 with
      | error e =>
        simp only [Except.bind]
        constructor
        · intro h; injection h with h; rw [h]; exact .inl rfl
        · rintro (h | ⟨⟨_, h⟩, _⟩)
          · injection h with h; rw [h]
          · cases h
      | ok xs =>
        cases Indexer.makeBlotters c with
        | error e =>
          simp only [Except.bind]
          constructor
          · intro h; injection h with h; rw [h]; exact .inr ⟨⟨xs, rfl⟩, rfl⟩
          · rintro (h | ⟨_, h⟩)
            · cases h
            · injection h with h; rw [h]
        | ok bs => exact ⟨fun h => (by cases h), fun h => by rcases h with h | ⟨_, h⟩ <;> cases h⟩
    refine ⟨?_, ?_, ?_, hall⟩
    · rw [hopen]
      constructor
      · rintro ⟨g1, g2⟩; exact ⟨c, ns, hb, g1, g2⟩
      · rintro ⟨c', ns', hb', g1, g2⟩
        obtain rfl := hun c' hb'.1
        exact ⟨g1, g2⟩
    · rw [hfault, hpan, hok, b2]
      constructor
      · intro h; exact ⟨c, hb.1, .inr (.inr (.inr ⟨ns, hb, h⟩))⟩
      · rintro ⟨c', g1, g⟩
        obtain rfl := hun c' g1
        rcases g with g | g | g | ⟨ns', _, g⟩
        · exact absurd (.inl g) (begun_not_stray hb)
        · exact absurd (.inr (.inl g)) (begun_not_stray hb)
        · exact absurd (.inr (.inr g)) (begun_not_stray hb)
        · exact g
    · rw [hfault, hdiv]
      constructor
      · rintro (h | ⟨_, h⟩)
        · exact ⟨c, ns, hb, h⟩
        · exact absurd h b3
      · rintro ⟨c', ns', hb', g⟩
        obtain rfl := hun c' hb'.1
        exact .inl g
  rcases open_not_begun d with hb | ⟨⟨c, h1, h2⟩, h3⟩ | ⟨h2, e, h3⟩
  · exact absurd hb hB
  · have hun : ∀ c', Config.readFrom Json.codec d = .ok c' → c' = c := fun c' g => by rw [h1] at g; injection g with g; exact g.symm
    refine ⟨⟨fun ⟨_, h⟩ => (by rw [h3] at h; cases h), ?_⟩, ⟨fun _ => ⟨c, h1, ?_⟩, fun _ => h3⟩, ⟨fun h => (by rw [h3] at h; cases h), ?_⟩, hall⟩
    · rintro ⟨c', ns', hb', _⟩
      obtain rfl := hun c' hb'.1
      exact absurd h2 (begun_not_stray hb')
    · rcases h2 with g | g | g
      · exact .inl g
      · exact .inr (.inl g)
      · exact .inr (.inr (.inl g))
    · rintro ⟨c', ns', hb', _⟩
      obtain rfl := hun c' hb'.1
      exact absurd h2 (begun_not_stray hb')
  · have hno : ∀ c ns, ¬ Begun Json.codec d c ns := fun c ns hb => hB ⟨c, ns, hb⟩
    refine ⟨⟨fun ⟨_, h⟩ => (by rw [h3] at h; cases h), ?_⟩, ⟨fun h => (by rw [h3] at h; cases h), ?_⟩, ⟨fun h => (by rw [h3] at h; cases h), ?_⟩, hall⟩
    · rintro ⟨c', ns', hb', _⟩; exact absurd hb' (hno _ _)
    · rintro ⟨c', g1, g⟩
      rcases g with g | g | g | ⟨ns', hb', _⟩
      · exact absurd ⟨c', g1, .inl g⟩ h2
      · exact absurd ⟨c', g1, .inr (.inl g)⟩ h2
      · exact absurd ⟨c', g1, .inr (.inr g)⟩ h2
      · exact absurd hb' (hno _ _)
    · rintro ⟨c', ns', hb', _⟩; exact absurd hb' (hno _ _)

theorem AppendEntries.mem {es : List ListEntry} : ∀ {f : Bytes}, AppendEntries f es → ∀ e ∈ es, e.count < 2 ^ 32 ∧ e.last < 2 ^ 32 := by
  induction es with
  | nil => intro f _ e he; cases he
  | cons e es ih =>
    rintro f ⟨a, r, _, ⟨l, m, t, k, v, _, _, _, _, _, h1, _, h2⟩, h3⟩ e' he
    rcases List.mem_cons.mp he with rfl | he
    · exact ⟨h1, by rw [h2]; exact four_lt t⟩
    · exact ih h3 e' he

/-- **C116**, what a session has of a directory that it opened: the configuration, the paths of the table, as many records as the file has whole ones (32 bits of their number),
and for each list the head, the number of documents, the last document, and the place of the last link; nothing is waiting to be written but, if there are no records,
that of document 0. -/
theorem C116_state {d : Dir} {x : Indexer} (h : Indexer.open Json.codec d = .ok x) : ∃ ns, Begun Json.codec d x.config ns ∧ x.front.fnames.map Fnames.says = ns ∧
    x.front.file = d .dmd ∧ x.front.dmds.flushed.toNat = (((d .dmd).getD []).length / 12) % 2 ^ 32 ∧
    x.front.dmds.buf = (if x.front.dmds.flushed = 0 then [⟨0, 0, 0⟩] else []) ∧ x.shards.length = x.config.numShards.toNat ∧
    ∀ (i : Nat) (s : ShardIndexer), x.shards[i]? = some s → ∃ es, AppendShard d i s.file es ∧ s.ind.length = 65536 ∧
      ∀ (k : Nat) (e : ListEntry), es[k]? = some e → ∃ p, s.ind[k]? = some p ∧ p.head = e.head ∧ LastLink s.file e.head p.link ∧
        p.total.toNat = e.count ∧ p.current.toNat = e.last ∧ p.posts = [] := by
  obtain ⟨c, ns, hb, _⟩ := (C116_open d).1.mp ⟨x, h⟩
  obtain ⟨a, t, t1, ha, ho⟩ := open_begun hb
  rw [ho] at h
  cases h1 : Indexer.openShards d c.numShards.toNat 0 with
  | error e => rw [h1] at h; cases h
  | ok xs =>
    cases h2 : Indexer.makeBlotters c with
    | error e => rw [h1, h2] at h; cases h
    | ok bs =>
      rw [h1, h2] at h
      simp only [Except.bind, Except.ok.injEq] at h
      subst h
      obtain ⟨g1, g2⟩ := (appendShards_ok d _ 0 xs).mp h1
      have hadd : a.flushed.toNat = (((d .dmd).getD []).length / 12) % 2 ^ 32 ∧ a.buf = (if a.flushed = 0 then [⟨0, 0, 0⟩] else []) := by
        unfold Dmd.newAdder at ha
        cases hd : d .dmd with
        | none =>
          rw [hd] at ha
          simp only [] at ha
          by_cases hf : c.docFlushRate < 1
          · rw [if_pos hf] at ha; cases ha
          · rw [if_neg hf] at ha; injection ha with ha; subst ha; exact ⟨rfl, rfl⟩
        | some b =>
          rw [hd] at ha
          simp only [] at ha
          by_cases hz : UInt32.ofNat (b.length / Dmd.rcdSize) = 0
          · rw [if_pos hz] at ha
            by_cases hf : c.docFlushRate < 1
            · rw [if_pos hf] at ha; cases ha
            · rw [if_neg hf] at ha; injection ha with ha; subst ha
              exact ⟨UInt32.toNat_ofNat', by simp only []; rw [if_pos hz]; rfl⟩
          · rw [if_neg hz] at ha
            by_cases hf : c.docFlushRate < 0
            · rw [if_pos hf] at ha; cases ha
            · rw [if_neg hf] at ha; injection ha with ha; subst ha
              exact ⟨UInt32.toNat_ofNat', by simp only []; rw [if_neg hz]⟩
      refine ⟨ns, hb, t1, rfl, hadd.1, hadd.2, g1, fun i s hs => ?_⟩
      obtain ⟨es, k1, k2⟩ := ((shardInit_exact d i).1 s).mp (by simpa using g2 i s hs)
      obtain ⟨l1, l2⟩ := k2.get
      obtain ⟨iix, m1, m2, m3, m4⟩ := k1
      refine ⟨es, ⟨iix, m1, m2, m3, m4⟩, by rw [l1, m4], fun k e hk => ?_⟩
      obtain ⟨l, n1, n2⟩ := l2 k e hk
      obtain ⟨o1, o2⟩ := AppendEntries.mem m3 e (List.mem_of_getElem? hk)
      refine ⟨_, n2, rfl, n1, ?_, ?_, rfl⟩
      · exact (UInt32.toNat_ofNat').trans (Nat.mod_eq_of_lt o1)
      · exact (UInt32.toNat_ofNat').trans (Nat.mod_eq_of_lt o2)

/-- **C116**: every index that was made by sessions is as C116 wants it. -/
theorem C116_sessions {u : Uni} {c : Config} (hU : Usable Json.codec c) {h : Sessions} {d : Dir} (hd : History u Json.codec c h d) (hf : Fits u c (documents h)) :
    (∃ ns, Begun Json.codec d c ns) ∧ ∀ i, i < c.numShards.toNat → ShardOpens d i := by
  obtain ⟨x, hx, _⟩ := open_rep hU (History.rep hU hd hf) hf
  obtain ⟨c', ns, h1, h2, _⟩ := (C116_open d).1.mp ⟨x, hx⟩
  have : c' = c := by
    have := h1.1
    rw [dirRep_readFrom hU (History.rep hU hd hf)] at this
    injection this with this
    exact this.symm
  subst this
  exact ⟨⟨ns, h1⟩, h2⟩

/-- the entry of a list without documents, with a count that is not one: ten bytes, the last of them 2 -/
def overEntry : Bytes := [1] ++ [128, 128, 128, 128, 128, 128, 128, 128, 128, 2] ++ [0, 0, 0, 0]

theorem overEntry_append : AppendEntry overEntry ⟨-1, 0, 0⟩ := by
  refine ⟨[1], [128, 128, 128, 128, 128, 128, 128, 128, 128, 2], [0, 0, 0, 0], 1, 0, rfl, ⟨[], 1, rfl, by decide, by simp, by decide, by decide, by decide⟩, by decide,
    ⟨[128, 128, 128, 128, 128, 128, 128, 128, 128], 2, rfl, by decide, by decide, by decide, .inl ⟨rfl, by decide, by decide, by decide⟩⟩, by decide, by decide, rfl, by decide⟩

theorem overEntries_append (n : Nat) : AppendEntries (List.flatten (List.replicate n overEntry)) (List.replicate n ⟨-1, 0, 0⟩) := by
  induction n with
  | zero => exact trivial
  | succ n ih => exact ⟨overEntry, _, by rw [List.replicate_succ, List.flatten_cons], overEntry_append, ih⟩

theorem overEntry_read (r : Bytes) (e : Int × Nat) (es : List (Int × Nat)) : ¬ Entries (overEntry ++ r) (e :: es) := by
  rintro ⟨a, r', h, ⟨l, m, t, k, k', rfl, h1, _, h2, _⟩, _⟩
  have e1 : [1] ++ ([128, 128, 128, 128, 128, 128, 128, 128, 128, 2] ++ [0, 0, 0, 0] ++ r) = l ++ (m ++ t ++ r') := by
    simpa [overEntry] using h
  obtain ⟨_, _, e2⟩ := Num.unique (v := 1) ⟨[], 1, rfl, by decide, by simp, by decide, by decide, by decide⟩ h1 e1
  have h3 := (readUvarint_exact ([128, 128, 128, 128, 128, 128, 128, 128, 128, 2] ++ [0, 0, 0, 0] ++ r) k' (t ++ r')).mpr ⟨m, by rw [e2, List.append_assoc], h2⟩
  cases h3

/-- **C116**: what a session opens need not open for reading.  Take any index made by sessions and let the file of heads of its first shard be 65536 entries of which the count is a
number of more than 64 bits: opening it to append succeeds, because the error in reading the count is not looked at, and opening it for reading fails. -/
theorem C116_lax {u : Uni} {c : Config} (srt : Sorter) (hU : Usable Json.codec c) {h : Sessions} {d : Dir} (hd : History u Json.codec c h d) (hf : Fits u c (documents h)) :
    (∃ x, Indexer.open Json.codec (d.set (.iix 0) (List.flatten (List.replicate 65536 overEntry))) = .ok x) ∧
    Errs (Index.open Json.codec srt (d.set (.iix 0) (List.flatten (List.replicate 65536 overEntry)))) := by
  obtain ⟨x, hx, _⟩ := open_rep hU (History.rep hU hd hf) hf
  obtain ⟨c', ns, h1, h2, h3⟩ := (C116_open d).1.mp ⟨x, hx⟩
  have : c' = c := by
    have := h1.1
    rw [dirRep_readFrom hU (History.rep hU hd hf)] at this
    injection this with this
    exact this.symm
  subst this
  have hn := hU.shards
  generalize hd' : d.set (.iix 0) (List.flatten (List.replicate 65536 overEntry)) = d'
  have hsame : ∀ f, f ≠ .iix 0 → d' f = d f := fun f hne => by rw [← hd']; simp only [Dir.set, if_neg hne]
  have hiix : d' (.iix 0) = some (List.flatten (List.replicate 65536 overEntry)) := by rw [← hd']; simp only [Dir.set, if_true]
  have hcfg : Config.readFrom Json.codec d' = .ok c' := by
    rw [← h1.1]; simp only [Config.readFrom, Dir.read, hsame .cfg (by intro h; cases h)]
  constructor
  · refine (C116_open d').1.mpr ⟨c', ns, ⟨hcfg, h1.2.1, ?_, ?_, h1.2.2.2.2⟩, fun i hi => ?_, h3⟩
    · rw [hsame .dmd (by intro h; cases h)]; exact h1.2.2.1
    · rw [hsame .fnm (by intro h; cases h)]; exact h1.2.2.2.1
    · obtain ⟨post, es, ⟨iix, a1, a2, a3⟩, a4⟩ := h2 i hi
      by_cases h0 : i = 0
      · subst h0
        refine ⟨post, List.replicate 65536 ⟨-1, 0, 0⟩, ⟨_, hiix, by rw [hsame _ (by intro h; cases h)]; exact a2, overEntries_append _, List.length_replicate⟩, fun e he => ?_⟩
        rw [(List.mem_replicate.mp he).2]
        exact ⟨-1, .inl ⟨rfl, rfl⟩⟩
      · exact ⟨post, es, ⟨iix, by rw [hsame _ (by intro h; injection h with h; exact h0 h)]; exact a1, by rw [hsame _ (by intro h; cases h)]; exact a2, a3⟩, a4⟩
  · obtain ⟨g1, g2, g3⟩ := C97_open srt d'
    rcases g3 with g | g | g
    · obtain ⟨c'', _, _, _, k1, _, _, _, _, k2⟩ := g1.mp g
      rw [hcfg] at k1; injection k1 with k1; subst k1
      obtain ⟨iix, post, es, l1, _, l3, l4⟩ := k2 0 (by omega)
      rw [hiix] at l1; injection l1 with l1; subst l1
      cases es with
      | nil => cases l4
      | cons e es =>
        rw [show 65536 = 65535 + 1 from rfl, List.replicate_succ, List.flatten_cons] at l3
        exact absurd l3 (overEntry_read _ _ _)
    · obtain ⟨c'', dmd, f, k1, k2, k3, k4⟩ := g2.mp g
      rw [hcfg] at k1; injection k1 with k1; subst k1
      obtain ⟨f', m1, m2⟩ := h1.2.2.2.1
      rw [hsame .fnm (by intro h; cases h), m1] at k3
      injection k3 with k3; subst k3
      rcases k4 with k4 | ⟨_, k4⟩
      · obtain ⟨t, t1, _⟩ := Fnames.read_of_table m2
        rw [Fnames.read_of_stray k4] at t1; cases t1
      · omega
    · exact g

/-- Not vacuous: there are such indices, there is one of each kind of list, and of each kind of number. -/
theorem C116_nonvacuous : (∃ (d : Dir), History asciiUni Json.codec exCmdConfig exCmdSessions d ∧ (∃ x, Indexer.open Json.codec d = .ok x) ∧
      ∃ d', Indexer.open Json.codec d' = .error .panic ∧ ∃ d'', Indexer.open Json.codec d'' = .error .diverge) ∧
    LastLink ([18, 0] ++ be64 (i64ToU64 (-1))) 0 2 ∧ Endless (loopBytes 0) 0 ∧ LeadsHuge hugeBytes 0 ∧
    LaxValue [128, 128, 128, 128, 128, 128, 128, 128, 128, 2] 0 ∧ LaxValue [5] 5 := by
  obtain ⟨d, hd⟩ := History.exists (u := asciiUni) exCmd_usable [47] [⟨[116, 47, 112], 0, 22, some exText1⟩, ⟨[116, 47, 113], 0, 24, some exText2⟩] [] exCmd_fits
  change History asciiUni Json.codec exCmdConfig exCmdSessions d at hd
  obtain ⟨x, hx, _⟩ := open_rep exCmd_usable (History.rep exCmd_usable hd exCmd_fits) exCmd_fits
  obtain ⟨⟨_, b, _, hb⟩, n1, n2, n3, n4⟩ := C94_nonvacuous
  obtain ⟨j1, f1, m1, _, _, p1⟩ := C94_false_append exCmd_usable hd exCmd_fits hb
  obtain ⟨j2, f2, m2, _, _, p2, _⟩ := C94_false_hang exCmd_usable mergeSorter_isSorter hd exCmd_fits hb
  refine ⟨⟨d, hd, ⟨x, hx⟩, _, p1, _, p2⟩, .inr ⟨by decide, 0, 0, 1, 9, rfl, ⟨⟨by decide, [], 18, _, rfl, rfl, by decide, by simp, by decide, by decide, by decide⟩, by decide, by decide, by decide, _, rfl, by decide⟩, by decide⟩, n1, ⟨0, 0, rfl, n2⟩, ?_, ?_⟩
  · exact ⟨[128, 128, 128, 128, 128, 128, 128, 128, 128], 2, rfl, by decide, by decide, by decide, .inl ⟨rfl, by decide, by decide, by decide⟩⟩
  · exact ⟨[], 5, rfl, by decide, by simp, by decide, .inr ⟨by decide, by decide⟩⟩

end Dupi.Props
