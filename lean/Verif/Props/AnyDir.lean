import Verif.Proof.AnyDir
import Verif.Props.Damaged
import Verif.Props.Fnames
/-! # C97: directories with any contents -/

namespace Dupi.Props
open Spec

theorem readFrom_tame (d : Dir) : Tame (Config.readFrom Json.codec d) :=
  (read_tame d .cfg).bind fun b _ => (Json.codec_tame b).bind fun c _ => (check_tame c).bind fun _ _ => .ok _

theorem Tame.not_panic {α : Type} {m : M α} (h : Tame m) : m ≠ .error .panic := by
  rcases h with ⟨a, h⟩ | ⟨e, h⟩ <;> rw [h] <;> intro hc <;> cases hc

theorem Tame.not_diverge {α : Type} {m : M α} (h : Tame m) : m ≠ .error .diverge := by
  rcases h with ⟨a, h⟩ | ⟨e, h⟩ <;> rw [h] <;> intro hc <;> cases hc

/-- **C97**, opening any directory for reading.  It opens precisely if the configuration can be read and has no negative number of shards, the file of records is there,
the path table is one, and each shard's two files are there, with 65536 entries in the file of heads.
There is a panic precisely if the configuration can be read, the file of records is there, and a node of the path table has a parent that is none of the nodes,
or the table is one and the number of shards is negative.  In all other cases an error is returned.  (Memory is taken to be unlimited: with some 10^8 shards `make`
panics, and a table of a few bytes can ask for more memory than there is.) -/
theorem C97_open (srt : Sorter) (d : Dir) :
    ((∃ x, Index.open Json.codec srt d = .ok x) ↔ ∃ c dmd f ns, Config.readFrom Json.codec d = .ok c ∧ d .dmd = some dmd ∧ d .fnm = some f ∧ TableFile f ns ∧
      0 ≤ c.numShards ∧ ∀ i, i < c.numShards.toNat → ShardThere d i) ∧
    (Index.open Json.codec srt d = .error .panic ↔ ∃ c dmd f, Config.readFrom Json.codec d = .ok c ∧ d .dmd = some dmd ∧ d .fnm = some f ∧
      (StrayFile f ∨ (∃ ns, TableFile f ns) ∧ c.numShards < 0)) ∧
    ((∃ x, Index.open Json.codec srt d = .ok x) ∨ Index.open Json.codec srt d = .error .panic ∨ Errs (Index.open Json.codec srt d)) := by
  have hok : (∃ x, Index.open Json.codec srt d = .ok x) ↔ ∃ c dmd f ns, Config.readFrom Json.codec d = .ok c ∧ d .dmd = some dmd ∧ d .fnm = some f ∧ TableFile f ns ∧
      0 ≤ c.numShards ∧ ∀ i, i < c.numShards.toNat → ShardThere d i := by
    constructor
    · rintro ⟨x, h⟩
      obtain ⟨h1, h2, ⟨f, h3, h3'⟩, h4⟩ := openIndex_inv h
      have := (openShards_exact srt d _ 0).mp ⟨_, h4⟩
      exact ⟨_, _, f, _, h1, h2, h3, ((Fnames.read_exact f).1 _).mp ⟨_, h3', rfl⟩, (opened h).1, fun i hi => by simpa using this i hi⟩
    · rintro ⟨c, dmd, f, ns, h1, h2, h3, h4, h5, h6⟩
      obtain ⟨t, t1, _⟩ := Fnames.read_of_table h4
      obtain ⟨xs, hx⟩ := (openShards_exact srt d c.numShards.toNat 0).mpr (fun k hk => by simpa using h6 k hk)
      refine ⟨⟨c, dmd, t, xs⟩, ?_⟩
      simp only [Index.open, Dir.read, bind, Except.bind, h1, h2, h3, t1, pure, Except.pure]
      rw [if_neg (by omega), hx]
  have hpan : (∃ c dmd f, Config.readFrom Json.codec d = .ok c ∧ d .dmd = some dmd ∧ d .fnm = some f ∧
      (StrayFile f ∨ (∃ ns, TableFile f ns) ∧ c.numShards < 0)) → Index.open Json.codec srt d = .error .panic := by
    rintro ⟨c, dmd, f, h1, h2, h3, h4⟩
    simp only [Index.open, Dir.read, bind, Except.bind, h1, h2, h3]
    rcases h4 with h4 | ⟨⟨ns, h4⟩, h5⟩
    · rw [Fnames.read_of_stray h4]
    · obtain ⟨t, t1, _⟩ := Fnames.read_of_table h4
      rw [t1]
      exact if_pos h5
  have htri : (∃ c dmd f, Config.readFrom Json.codec d = .ok c ∧ d .dmd = some dmd ∧ d .fnm = some f ∧
      (StrayFile f ∨ (∃ ns, TableFile f ns) ∧ c.numShards < 0)) ∨ Tame (Index.open Json.codec srt d) := by
    rcases readFrom_tame d with ⟨c, h1⟩ | ⟨e, h1⟩
    · cases h2 : d .dmd with
      | none => right; right; exact ⟨.notExist, by simp only [Index.open, Dir.read, bind, Except.bind, h1, h2]⟩
      | some dmd =>
        cases h3 : d .fnm with
        | none => right; right; exact ⟨.notExist, by simp only [Index.open, Dir.read, bind, Except.bind, h1, h2, h3]⟩
        | some f =>
          rcases Fnames.read_tri f with ⟨ns, h4⟩ | h4 | ⟨e, h4⟩
          · by_cases hn : c.numShards < 0
            · exact .inl ⟨c, dmd, f, h1, rfl, rfl, .inr ⟨⟨ns, h4⟩, hn⟩⟩
            · right
              refine openIndex_tame h1 (by omega) ?_
              intro b hb
              rw [h3] at hb; injection hb with hb; subst hb
              obtain ⟨t, t1, _⟩ := Fnames.read_of_table h4
              exact .inl ⟨t, t1⟩
          · exact .inl ⟨c, dmd, f, h1, rfl, rfl, .inl h4⟩
          · right; right; exact ⟨e, by simp only [Index.open, Dir.read, bind, Except.bind, h1, h2, h3, h4]⟩
    · right; right; exact ⟨e, by simp only [Index.open, bind, Except.bind, h1]⟩
  refine ⟨hok, ⟨fun h => ?_, hpan⟩, ?_⟩
  · rcases htri with h' | h'
    · exact h'
    · exact absurd h (Tame.not_panic h')
  · rcases htri with h' | h' | h'
    · exact .inr (.inl (hpan h'))
    · exact .inl h'
    · exact .inr (.inr h')

/-- **C97**, the path of a document of any directory that opened.  It is an error if the record is not in the file.  Otherwise it is the path that the table has under the
number in the record; there is a panic precisely if there is no such node, and an endless loop precisely if from the node the parents do not lead to the root. -/
theorem C97_path {srt : Sorter} {d : Dir} {x : Index} (hx : Index.open Json.codec srt d = .ok x) :
    ∃ dmd f ns, d .dmd = some dmd ∧ d .fnm = some f ∧ TableFile f ns ∧ ∀ id : UInt32,
      (dmd.length < 12 * (id.toNat + 1) → Errs (x.docid2Doc id)) ∧
      ∀ p, RecordAt dmd id.toNat p →
        (∀ cs, p < ns.length → Leads ns p cs → ∃ a b, x.docid2Doc id = .ok (sep :: joinSlash cs, a, b)) ∧
        (x.docid2Doc id = .error .panic ↔ ns.length ≤ p) ∧
        (x.docid2Doc id = .error .diverge ↔ p < ns.length ∧ ¬ ∃ cs, Leads ns p cs) := by
  obtain ⟨h1, h2, ⟨f, h3, h3'⟩, h4⟩ := openIndex_inv hx
  have ht := ((Fnames.read_exact f).1 _).mp ⟨_, h3', rfl⟩
  have hp : ∀ n ∈ x.fnames.map Fnames.says, n.2 < (x.fnames.map Fnames.says).length := by
    obtain ⟨_, _, _, _, _, _, _, h⟩ := ht
    exact h
  refine ⟨x.dmd, f, _, h2, h3, ht, fun id => ?_⟩
  obtain ⟨g1, g2⟩ := docid2Doc_exact rfl hp id
  refine ⟨g1, fun p hr => ?_⟩
  obtain ⟨k1, k2, k3⟩ := g2 p hr
  refine ⟨k1, ⟨fun h => ?_, k2⟩, ⟨fun h => ?_, fun h => k3 h.1 h.2⟩⟩
  · apply Classical.byContradiction
    intro hc
    by_cases hl : ∃ cs, Leads (x.fnames.map Fnames.says) p cs
    · obtain ⟨cs, hl⟩ := hl
      obtain ⟨a, b, e⟩ := k1 cs (by omega) hl
      rw [e] at h; cases h
    · rw [k3 (by omega) hl] at h; cases h
  · have hlt : p < (x.fnames.map Fnames.says).length := by
      apply Classical.byContradiction
      intro hc
      rw [k2 (by omega)] at h; cases h
    refine ⟨hlt, ?_⟩
    rintro ⟨cs, hl⟩
    obtain ⟨a, b, e⟩ := k1 cs hlt hl
    rw [e] at h; cases h

theorem docs_tame {srt : Sorter} {d : Dir} {x : Index} (hx : Index.open Json.codec srt d = .ok x) {dmd f : Bytes} {ns : List (Bytes × Nat)}
    (h1 : d .dmd = some dmd) (h2 : d .fnm = some f) (h3 : TableFile f ns) (h4 : PathsThere dmd ns) (id : UInt32) : Tame (x.docid2Doc id) := by
  obtain ⟨dmd', f', ns', k1, k2, k3, k4⟩ := C97_path hx
  rw [h1] at k1; injection k1 with k1; subst k1
  rw [h2] at k2; injection k2 with k2; subst k2
  obtain ⟨t, t1, t2⟩ := Fnames.read_of_table h3
  obtain ⟨t', t1', t2'⟩ := Fnames.read_of_table k3
  rw [t1] at t1'; injection t1' with t1'; subst t1'
  rw [t2] at t2'; subst t2'
  obtain ⟨g1, g2⟩ := k4 id
  by_cases hl : dmd.length < 12 * (id.toNat + 1)
  · exact .inr (g1 hl)
  · have hr : RecordAt dmd id.toNat (four ((dmd.drop (12 * id.toNat)).take 4)) := ⟨by omega, rfl⟩
    obtain ⟨m1, cs, m2⟩ := h4 _ _ id.toNat_lt hr
    obtain ⟨a, b, e⟩ := (g2 _ hr).1 cs m1 m2
    exact .inl ⟨_, e⟩

/-- **C97**, `Get` in any directory that opened, with at least one shard, and whose records have paths.  `Get` of a blot ends with a result or an error if the links from
the head of its list lead to no length that dupi does not write, and either a slice with a limit is given, or the links end. -/
theorem C97_get_partial {srt : Sorter} (hsrt : IsSorter srt) {d : Dir} {x : Index} (hx : Index.open Json.codec srt d = .ok x) (hn : 0 < x.config.numShards)
    (hn' : x.config.numShards < 2 ^ 32) {dmd f : Bytes} {ns : List (Bytes × Nat)} (h1 : d .dmd = some dmd) (h2 : d .fnm = some f) (h3 : TableFile f ns) (h4 : PathsThere dmd ns) :
    ∃ q, x.startQuery = .ok q ∧ ∀ grow (b : Blot) fuel post h, ListAt d (b.blot.toNat % x.config.numShards.toNat) (b.blot.toNat / x.config.numShards.toNat % 65536) post h →
      (∀ k p, Follow post k h p → ¬ WildAt post p) →
      ((b.docs.isSome = true ∧ b.cap - b.len < fuel) ∨ (¬ Endless post h ∧ 522 * (post.length + 1) < fuel)) →
      Tame (Query.get grow x fuel q b) := by
  obtain ⟨o1, o2, o3⟩ := opened hx
  obtain ⟨q, s1, s2⟩ := startQuery_any hsrt o2 (by omega) (by omega) o3
  refine ⟨q, s1, fun grow b fuel post h hl f1 f2 => ?_⟩
  obtain ⟨r1, r2, r3⟩ := route_parts (n := x.config.numShards.toNat) (by omega) (by omega) b.blot q.n s2.qn
  have hlt : b.blot.toNat % x.config.numShards.toNat < x.shards.length := by rw [o2]; exact Nat.mod_lt _ (by omega)
  have hs := List.getElem?_eq_getElem hlt
  have hr := o3 _ _ hs
  obtain ⟨e1, e2⟩ := hr.back _ _ _ hl
  subst e1
  have hk : b.blot.toNat / x.config.numShards.toNat % 65536 < 65536 := Nat.mod_lt _ (by decide)
  exact get_any grow x q b fuel r1 (by rw [r2]; exact hs) (by rw [r3]; exact e2)
    (by rw [r3]; exact List.getElem?_eq_getElem (by rw [hr.counts]; exact hk)) (docs_tame hx h1 h2 h3 h4) f1 f2

theorem nextCalls_tame {x : Index} {n : Nat} (hx : Query.AnyIndex x n) (grow : Nat → Nat) (ff fuel K : Nat) : ∀ (dsts : List (List Blot)) (q : QState),
    Query.AnyQuery x n q → Query.sws q.shardStates ≤ K → (∀ dst ∈ dsts, ∀ b ∈ dst, Query.Suits x ff b) → (∀ dst ∈ dsts, K + 2 ^ 32 + dst.length < fuel) →
    Tame (nextCalls grow x ff fuel q dsts) := by
  intro dsts
  induction dsts with
  | nil => intro q _ _ _ _; exact .ok _
  | cons dst dsts ih =>
    intro q hq hK hs hf
    have hgo := Query.toGo_le q
    have hf0 := hf dst List.mem_cons_self
    rcases Query.nextLoop_tame hx grow (ff := ff) fuel q 0 dst hq (by simpa using hs dst List.mem_cons_self) (by omega) with ⟨e, h⟩ | ⟨r, h, r1, r2⟩
    · exact .inr ⟨e, by simp only [nextCalls, Query.next, h, bind, Except.bind]⟩
    · have := ih r.state r1 (by omega) (fun d hd => hs d (List.mem_cons_of_mem _ hd)) (fun d hd => hf d (List.mem_cons_of_mem _ hd))
      rcases this with ⟨rs, h'⟩ | ⟨e, h'⟩
      · exact .inl ⟨r :: rs, by simp only [nextCalls, Query.next, h, h', bind, Except.bind, pure, Except.pure]⟩
      · exact .inr ⟨e, by simp only [nextCalls, Query.next, h, h', bind, Except.bind]⟩

/-- **C97**, any calls of `Next` in any directory that opened, with at least one shard, and whose records have paths.  They end with results or an error if from no head
the links lead to a length that dupi does not write, and either the slices have limits, or from all heads the links end. -/
theorem C97_next_partial {srt : Sorter} (hsrt : IsSorter srt) {d : Dir} {x : Index} (hx : Index.open Json.codec srt d = .ok x) (hn : 0 < x.config.numShards)
    (hn' : x.config.numShards < 2 ^ 32) {dmd f : Bytes} {ns : List (Bytes × Nat)} (h1 : d .dmd = some dmd) (h2 : d .fnm = some f) (h3 : TableFile f ns) (h4 : PathsThere dmd ns)
    (h5 : ∀ i k post h, i < x.config.numShards.toNat → ListAt d i k post h → ∀ m p, Follow post m h p → ¬ WildAt post p) :
    ∃ q K, x.startQuery = .ok q ∧ ∀ grow ff fuel dsts, (∀ dst ∈ dsts, K + dst.length < fuel) →
      (∀ dst ∈ dsts, ∀ b ∈ dst, (b.docs.isSome = true ∧ b.cap < ff) ∨
        (b.docs = none ∧ ∀ i k post h, i < x.config.numShards.toNat → ListAt d i k post h → ¬ Endless post h ∧ 522 * (post.length + 2) < ff)) →
      Tame (nextCalls grow x ff fuel q dsts) := by
  obtain ⟨o1, o2, o3⟩ := opened hx
  obtain ⟨q, s1, s2⟩ := startQuery_any hsrt o2 (by omega) (by omega) o3
  have hli : ∀ s ∈ x.shards, ∀ (k : Nat) h, s.heads[k]? = some h → ∃ i, i < x.config.numShards.toNat ∧ ListAt d i k s.file h := by
    intro s hs k h hk
    obtain ⟨j, hj⟩ := List.getElem?_of_mem hs
    exact ⟨j, by rw [← o2]; exact (List.getElem?_eq_some_iff.mp hj).1, (o3 j s hj).list k h hk⟩
  have hany : Query.AnyIndex x x.config.numShards.toNat := by
    refine ⟨o2, by omega, by omega, ?_, docs_tame hx h1 h2 h3 h4, ?_⟩
    · intro s hs a ha
      obtain ⟨j, hj⟩ := List.getElem?_of_mem hs
      exact readStateAt_any hsrt (o3 j s hj) ha
    · intro s hs h hh k p hf
      obtain ⟨m, hm⟩ := List.getElem?_of_mem hh
      obtain ⟨i, hi, hl⟩ := hli s hs m h hm
      exact h5 i m _ h hi hl k p hf
  refine ⟨q, Query.sws q.shardStates + 2 ^ 32, s1, fun grow ff fuel dsts hf hb => ?_⟩
  refine nextCalls_tame hany grow ff fuel _ dsts q s2 (Nat.le_refl _) ?_ hf
  intro dst hd b hbm
  rcases hb dst hd b hbm with h | ⟨g1, g2⟩
  · exact .inl h
  · refine .inr ⟨g1, ?_, ?_⟩
    · intro s hs h hh
      obtain ⟨m, hm⟩ := List.getElem?_of_mem hh
      obtain ⟨i, hi, hl⟩ := hli s hs m h hm
      exact (g2 i m _ h hi hl).1
    · intro s hs
      obtain ⟨j, hj⟩ := List.getElem?_of_mem hs
      have hlen := (o3 j s hj).heads
      obtain ⟨i, hi, hl⟩ := hli s hs 0 _ (List.getElem?_eq_getElem (by rw [hlen]; decide))
      exact (g2 i 0 _ _ hi hl).2

/-- **C97**, opening any directory to append.  It ends with a result or an error if the numbers in the configuration are not negative (the flush rate more than 0), no node
of the path table has a parent that is none of the nodes, and from the heads of the shards the links end. -/
theorem C97_append_partial (d : Dir)
    (h1 : ∀ c, Config.readFrom Json.codec d = .ok c → 0 ≤ c.numShards ∧ 1 ≤ c.docFlushRate ∧ 0 ≤ c.blotConfig.seqLen ∧ ∀ i, i < c.numShards.toNat → Walkable d i)
    (h2 : ∀ f, d .fnm = some f → ¬ StrayFile f) : Tame (Indexer.open Json.codec d) := by
  unfold Indexer.open
  refine (readFrom_tame d).bind fun c hc => ?_
  obtain ⟨g1, g2, g3, g4⟩ := h1 c hc
  refine Tame.bind (by unfold Indexer.makeShards; rw [if_neg (by omega)]; exact .ok _) fun n hn => ?_
  unfold Indexer.makeShards at hn
  rw [if_neg (by omega)] at hn
  injection hn with hn
  subst hn
  refine Tame.bind ?_ fun a _ => (read_tame d .fnm).bind fun f hf => ?_
  · unfold Dmd.newAdder
    cases d .dmd with
    | none => simp only []; rw [if_neg (by omega)]; exact .ok _
    | some b =>
      simp only []
      split
      · rw [if_neg (by omega)]; exact .ok _
      · rw [if_neg (by omega)]; exact .ok _
  have hf' : d .fnm = some f := by
    unfold Dir.read at hf
    split at hf
    · cases hf
    · rename_i e; injection hf with hf; rw [e, hf]
  refine Tame.bind ?_ fun t _ => (fromConfig_tame _).bind fun _ _ => (indexerShards_any d _ 0 ?_).bind fun _ _ => Tame.bind ?_ fun _ _ => .ok _
  · rcases Fnames.read_tri f with ⟨ns, h⟩ | h | h
    · obtain ⟨t, t1, _⟩ := Fnames.read_of_table h
      exact .inl ⟨t, t1⟩
    · exact absurd h (h2 f hf')
    · exact .inr h
  · intro k _ hk
    exact g4 k (by omega)
  · unfold Indexer.makeBlotters
    split
    · exact .ok _
    · unfold Blotter.fromConfig Circ.new
      split
      · exact .inr ⟨_, rfl⟩
      · split
        · rw [if_neg (by omega)]; exact .inl ⟨_, rfl⟩
        · rw [if_neg (by omega)]; exact .inl ⟨_, rfl⟩

/-! ## What is false -/

/-- **C97** is false as it stands: if the path table is replaced by three bytes, a directory that can be opened otherwise makes both ways to open it panic. -/
theorem C97_false_table (srt : Sorter) {d : Dir} {c : Config} {b : Bytes} (h1 : Config.readFrom Json.codec d = .ok c) (h2 : d .dmd = some b) :
    Index.open Json.codec srt (d.set .fnm [1, 0, 5]) = .error .panic ∧
    (0 ≤ c.numShards → 1 ≤ c.docFlushRate → Indexer.open Json.codec (d.set .fnm [1, 0, 5]) = .error .panic) := by
  have hr : Config.readFrom Json.codec (d.set .fnm [1, 0, 5]) = .ok c := by
    have : Config.readFrom Json.codec (d.set .fnm [1, 0, 5]) = Config.readFrom Json.codec d := by simp [Config.readFrom, Dir.read, Dir.set]
    rw [this, h1]
  have hd : (d.set .fnm [1, 0, 5]) .dmd = some b := by simp [Dir.set, h2]
  have hf : (d.set .fnm [1, 0, 5]) .fnm = some [1, 0, 5] := by simp [Dir.set]
  constructor
  · simp only [Index.open, Dir.read, bind, Except.bind, hr, hd, hf, _root_.Dupi.Props.C44_read_panics]
  · intro g1 g2
    have hn : ∃ a, Dmd.newAdder (some b) c.docFlushRate = .ok a := by
      unfold Dmd.newAdder
      simp only []
      split
      · rw [if_neg (by omega)]; exact ⟨_, rfl⟩
      · rw [if_neg (by omega)]; exact ⟨_, rfl⟩
    obtain ⟨a, ha⟩ := hn
    simp only [Indexer.open, Dir.read, bind, Except.bind, hr, hd, hf, Indexer.makeShards]
    rw [if_neg (by omega)]
    simp only [ha, _root_.Dupi.Props.C44_read_panics]

theorem openShards_congr (srt : Sorter) {d d' : Dir} (h1 : ∀ i, d' (.iix i) = d (.iix i)) (h2 : ∀ i, d' (.pos i) = d (.pos i)) (n : Nat) : ∀ i,
    Index.openShards srt d' n i = Index.openShards srt d n i := by
  induction n with
  | zero => intro i; rfl
  | succ n ih => intro i; simp only [Index.openShards, Dir.read, h1, h2, ih]

/-- other records and another path table -/
theorem open_with_meta {J : CfgCodec} {srt : Sorter} {d : Dir} {x : Index} (h : Index.open J srt d = .ok x) {dmd f : Bytes} {t : Fnames.Table} (ht : Fnames.read f = .ok t) :
    Index.open J srt ((d.set .dmd dmd).set .fnm f) = .ok { x with dmd := dmd, fnames := t } := by
  obtain ⟨h1, h2, ⟨f0, h3, h3'⟩, h4⟩ := openIndex_inv h
  have h0 := (opened h).1
  have hr : Config.readFrom J ((d.set .dmd dmd).set .fnm f) = Config.readFrom J d := by simp [Config.readFrom, Dir.read, Dir.set]
  have hs := openShards_congr srt (d := d) (d' := (d.set .dmd dmd).set .fnm f) (by intro i; simp [Dir.set]) (by intro i; simp [Dir.set]) x.config.numShards.toNat 0
  have hd : ((d.set .dmd dmd).set .fnm f) .dmd = some dmd := by simp [Dir.set]
  have hf : ((d.set .dmd dmd).set .fnm f) .fnm = some f := by simp [Dir.set]
  simp only [Index.open, Dir.read, bind, Except.bind, hr, h1, hd, hf, ht]
  rw [if_neg (by omega), hs, h4]
  rfl

/-- `id` such records -/
theorem records_drop (r : Bytes) (hr : r.length = 12) : ∀ (id k : Nat), id < k → ∃ rest, ((List.replicate k r).flatten).drop (12 * id) = r ++ rest := by
  intro id
  induction id with
  | zero =>
    intro k hk
    obtain ⟨m, rfl⟩ : ∃ m, k = m + 1 := ⟨k - 1, by omega⟩
    exact ⟨(List.replicate m r).flatten, by rw [List.replicate_succ]; rfl⟩
  | succ id ih =>
    intro k hk
    obtain ⟨m, rfl⟩ : ∃ m, k = m + 1 := ⟨k - 1, by omega⟩
    obtain ⟨rest, h⟩ := ih m (by omega)
    refine ⟨rest, ?_⟩
    rw [List.replicate_succ, List.flatten_cons, show 12 * (id + 1) = r.length + 12 * id by omega, List.drop_length_add_append]
    exact h

section
variable {u : Uni} {J : CfgCodec} {srt : Sorter} {c : Config} (hU : Usable J c) (hsrt : IsSorter srt)
include hU hsrt

/-- the first document of a list, with other records and another path table -/
theorem get_first {h : Sessions} {d : Dir} (hd : History u J c h d) (hf : Fits u c (documents h)) {b : UInt32} (hb : found u c (documents h) b.toNat ≠ []) :
    ∃ x, Index.open J srt d = .ok x ∧ ∃ id : UInt32, 12 * (id.toNat + 1) ≤ x.dmd.length ∧ ∀ (dmd : Bytes) (t : Fnames.Table) (q : QState) fault,
      ({ x with dmd := dmd, fnames := t } : Index).startQuery = .ok q → ({ x with dmd := dmd, fnames := t } : Index).docid2Doc id = .error fault → (∀ e, fault ≠ .err e) →
      ∀ grow fuel, Query.get grow { x with dmd := dmd, fnames := t } (fuel + 1) q ⟨b, none⟩ = .error fault := by
  obtain ⟨x, q, o1, hr⟩ := reading_exists hU hsrt hd hf
  obtain ⟨r1, r2, _, r4, r5, _⟩ := hr.rep hU hsrt hf
  have hn := hU.shards
  have hn' := hU.shardsSmall
  obtain ⟨g1, s, rs, g2, g3, g4, g5⟩ := Query.get_route r1 (by omega) (by omega) b r4
  have hlen := bucketIds_length_found u c (documents h) hf.ids b.toNat
  cases hv : bucketIds u c (documents h) (b.toNat % c.numShards.toNat) (b.toNat / c.numShards.toNat % 65536) with
  | nil =>
    rw [hv] at hlen
    exact absurd (List.length_eq_zero_iff.mp hlen.symm) hb
  | cons id rest =>
    rw [hv] at g4 g5
    have hdoc := g5 id List.mem_cons_self
    refine ⟨x, o1, id, ?_, ?_⟩
    · apply Classical.byContradiction
      intro hc
      obtain ⟨e, he⟩ := (lookup_exact x.dmd id).2 (by omega)
      simp only [Index.docid2Doc, he] at hdoc
      cases hdoc
    · intro dmd t q' fault hq hfl hne grow fuel
      have hqq : q' = q := by
        have h1 : ({ x with dmd := dmd, fnames := t } : Index).startQuery = x.startQuery := rfl
        rw [h1, hr.start] at hq
        injection hq with hq
        exact hq.symm
      subst hqq
      obtain ⟨p, n1, _⟩ := ReadState.next_step g4
      unfold Query.get
      rw [if_neg g1]
      simp only []
      rw [g2]
      simp only [g3, bind, Except.bind, Query.getLoop, n1, Option.isSome_none, Bool.false_and, Blot.next, hfl]
      rw [if_neg (by simp)]

/-- **C97** is false as it stands: every index that was made by sessions still opens after its path table is replaced by one byte, the table without nodes;
and then `Get` of every blot that has a document panics. -/
theorem C97_false_get {h : Sessions} {d : Dir} (hd : History u J c h d) (hf : Fits u c (documents h)) {b : UInt32} (hb : found u c (documents h) b.toNat ≠ []) :
    ∃ dmd x q, d .dmd = some dmd ∧ Index.open J srt (d.set .fnm [0]) = .ok x ∧ x.startQuery = .ok q ∧
      ∀ grow fuel, Query.get grow x (fuel + 1) q ⟨b, none⟩ = .error .panic := by
  obtain ⟨x, o1, id, k1, k2⟩ := get_first (srt := srt) hU hsrt hd hf hb
  obtain ⟨x', q, o1', hr⟩ := reading_exists hU hsrt hd hf
  rw [o1] at o1'; injection o1' with o1'; subst o1'
  have ht : Fnames.read [0] = .ok [] := by decide
  have ho := open_with_meta o1 (dmd := x.dmd) ht
  have hdd := (openIndex_inv o1).2.1
  have he : (d.set .dmd x.dmd).set .fnm [0] = d.set .fnm [0] := by
    funext g
    simp only [Dir.set]
    split
    · rfl
    · split
      · rename_i e; rw [e, hdd]
      · rfl
  rw [he] at ho
  refine ⟨x.dmd, _, q, hdd, ho, hr.start, k2 x.dmd [] q .panic hr.start ?_ (by intro e h; cases h)⟩
  exact ((docid2Doc_exact (x := { x with dmd := x.dmd, fnames := [] }) (ns := []) rfl (by simp) id).2 _ ⟨k1, rfl⟩).2.1 (Nat.zero_le _)

/-- **C97** is false as it stands: every index that was made by sessions still opens after its path table is replaced by one of two nodes, the second of which is its own
parent, and its records by ones with that node; and then `Get` of every blot that has a document does not end. -/
theorem C97_false_endless {h : Sessions} {d : Dir} (hd : History u J c h d) (hf : Fits u c (documents h)) {b : UInt32} (hb : found u c (documents h) b.toNat ≠ []) :
    ∃ dmd x q, Index.open J srt ((d.set .dmd dmd).set .fnm [2, 0, 0, 1, 97, 1]) = .ok x ∧ x.startQuery = .ok q ∧
      ∀ grow fuel, Query.get grow x fuel q ⟨b, none⟩ = .error .diverge := by
  obtain ⟨x, o1, id, k1, k2⟩ := get_first (srt := srt) hU hsrt hd hf hb
  obtain ⟨x', q, o1', hr⟩ := reading_exists hU hsrt hd hf
  rw [o1] at o1'; injection o1' with o1'; subst o1'
  have ht : ∃ t, Fnames.read [2, 0, 0, 1, 97, 1] = .ok t ∧ t.map Fnames.says = [([], 0), ([97], 1)] := ⟨_, rfl, by decide⟩
  obtain ⟨t, t1, t2⟩ := ht
  let r : Bytes := [0, 0, 0, 1, 0, 0, 0, 0, 0, 0, 0, 0]
  let dmd : Bytes := (List.replicate x.dmd.length r).flatten
  have ho := open_with_meta o1 (dmd := dmd) t1
  have hrec : RecordAt dmd id.toNat 1 := by
    obtain ⟨rest, h1⟩ := records_drop r rfl id.toNat x.dmd.length (by omega)
    refine ⟨?_, ?_⟩
    · have := congrArg List.length h1
      have hr12 : r.length = 12 := rfl
      have hdl : dmd.length = ((List.replicate x.dmd.length r).flatten).length := rfl
      rw [List.length_drop, List.length_append, hr12] at this
      omega
    · show 1 = four ((dmd.drop (12 * id.toNat)).take 4)
      rw [h1]; rfl
  have hno' : ∀ i cs, Leads [([], 0), ([97], 1)] i cs → i ≠ 1 := by
    intro i cs hl
    induction hl with
    | root => decide
    | @step i name p cs g1 g2 _ ih =>
      intro hi
      subst hi
      simp only [List.getElem?_cons_succ, List.getElem?_cons_zero, Option.some.injEq, Prod.mk.injEq] at g2
      exact ih g2.2.symm
  have hno : ¬ ∃ cs, Leads [([], 0), ([97], 1)] 1 cs := fun ⟨cs, hl⟩ => hno' 1 cs hl rfl
  refine ⟨dmd, _, q, ho, hr.start, fun grow fuel => ?_⟩
  cases fuel with
  | zero =>
    obtain ⟨r1, _, _, r4, _, _⟩ := hr.rep hU hsrt hf
    have hn := hU.shards
    have hn' := hU.shardsSmall
    obtain ⟨g1, s, rs, g2, g3, _⟩ := Query.get_route r1 (by omega) (by omega) b r4
    unfold Query.get
    rw [if_neg g1]
    simp only []
    rw [g2]
    simp only [g3, bind, Except.bind, Query.getLoop]
  | succ fuel =>
    exact k2 dmd t q .diverge hr.start (((docid2Doc_exact (x := { x with dmd := dmd, fnames := t }) t2 (by decide) id).2 1 hrec).2.2 (by decide) hno) (by intro e h; cases h) grow fuel

omit hU hsrt in
/-- **C97**: the records of an index that was made by sessions have paths. -/
theorem C97_sessions (hU : Usable Json.codec c) {h : Sessions} {d : Dir} (hd : History u Json.codec c h d) (hf : Fits u c (documents h)) :
    Config.readFrom Json.codec d = .ok c ∧ (∀ i, i < c.numShards.toNat → ShardThere d i) ∧ ∃ dmd f ns, d .dmd = some dmd ∧ d .fnm = some f ∧ TableFile f ns ∧ PathsThere dmd ns := by
  have hrep := History.rep hU hd hf
  obtain ⟨ps, bs, hp⟩ := hrep.parts hf
  obtain ⟨t, fl, o1, hm⟩ := openIndex_parts hU mergeSorter hrep hf hp
  have hdoc := docid2Doc_tame hm (documents_rooted h) c (shardsOf mergeSorter c.numShards.toNat ps bs)
  obtain ⟨i1, _, _, i4⟩ := openIndex_inv o1
  obtain ⟨dmd, f, ns, h1, h2, h3, h4⟩ := C97_path o1
  refine ⟨i1, fun i hi => by simpa using (openShards_exact mergeSorter d _ 0).mp ⟨_, i4⟩ i hi, dmd, f, ns, h1, h2, h3, fun id p hid hr => ?_⟩
  have he : (UInt32.ofNat id).toNat = id := by rw [UInt32.toNat_ofNat']; omega
  obtain ⟨_, g2⟩ := h4 (UInt32.ofNat id)
  rw [he] at g2
  obtain ⟨_, k2, k3⟩ := g2 p hr
  have hlt : p < ns.length := by
    apply Classical.byContradiction
    intro hc
    exact Tame.not_panic (hdoc (UInt32.ofNat id)) (k2.mpr (by omega))
  refine ⟨hlt, Classical.byContradiction fun hc => ?_⟩
  exact Tame.not_diverge (hdoc (UInt32.ofNat id)) (k3.mpr ⟨hlt, hc⟩)

omit hU in
/-- **C94**, `Next`.  Let the posting files of an index that was made by sessions be replaced by any files.  Any calls of `Next` end with results or an error if from no head the links
lead to a length that dupi does not write, and either the slices have limits, or from all heads the links end. -/
theorem C94_next_partial (hU : Usable Json.codec c) {h : Sessions} {d d' : Dir} (hd : History u Json.codec c h d) (hf : Fits u c (documents h))
    (h1 : ∀ f, (∀ i, f ≠ .pos i) → d' f = d f) (h2 : ∀ i b, d (.pos i) = some b → ∃ b', d' (.pos i) = some b')
    (h3 : ∀ i k post p, i < c.numShards.toNat → ListAt d' i k post p → ∀ m r, Follow post m p r → ¬ WildAt post r) :
    ∃ x q K, Index.open Json.codec srt d' = .ok x ∧ x.startQuery = .ok q ∧ ∀ grow ff fuel dsts, (∀ dst ∈ dsts, K + dst.length < fuel) →
      (∀ dst ∈ dsts, ∀ b ∈ dst, (b.docs.isSome = true ∧ b.cap < ff) ∨
        (b.docs = none ∧ ∀ i k post p, i < c.numShards.toNat → ListAt d' i k post p → ¬ Endless post p ∧ 522 * (post.length + 2) < ff)) →
      Tame (nextCalls grow x ff fuel q dsts) := by
  obtain ⟨g1, g2, dmd, f, ns, g3, g4, g5, g6⟩ := C97_sessions hU hd hf
  have hn := hU.shards
  have hcfg : Config.readFrom Json.codec d' = .ok c := by
    rw [← g1]; simp only [Config.readFrom, Dir.read, h1 .cfg (by intro i hc; cases hc)]
  rw [← h1 .dmd (by intro i hc; cases hc)] at g3
  rw [← h1 .fnm (by intro i hc; cases hc)] at g4
  obtain ⟨x, hx⟩ := (C97_open srt d').1.mpr ⟨c, dmd, f, ns, hcfg, g3, g4, g5, by omega, fun i hi => by
    obtain ⟨iix, post, es, k1, k2, k3, k4⟩ := g2 i hi
    obtain ⟨b', hb'⟩ := h2 i post k2
    exact ⟨iix, b', es, by rw [h1 (.iix i) (by intro i hc; cases hc)]; exact k1, hb', k3, k4⟩⟩
  have hc : x.config = c := by
    have := (openIndex_inv hx).1
    rw [hcfg] at this; injection this with this; exact this.symm
  obtain ⟨q, K, k1, k2⟩ := C97_next_partial hsrt hx (by rw [hc]; exact hn) (by rw [hc]; exact hU.shardsSmall) g3 g4 g5 g6 (by rw [hc]; exact h3)
  rw [hc] at k2
  exact ⟨x, q, K, hx, k1, k2⟩

end

/-- in a file without bytes there are no numbers -/
theorem number_nil {p v : Int} {n : Nat} : ¬ NumberAt [] p v n := by
  rintro ⟨_, bs, b, rest, h, _⟩
  simp at h

/-- An index whose posting files are empty: `Get`, `Next` and opening it to append end with results or errors. -/
example : ∃ (d : Dir) (x : Index) (q : QState) (K : Nat), Index.open Json.codec mergeSorter d = .ok x ∧ x.startQuery = .ok q ∧
    (∀ (b : UInt32) grow fuel, 522 < fuel → Tame (Query.get grow x fuel q ⟨b, none⟩)) ∧
    (∀ grow fuel, K + 1 < fuel → Tame (nextCalls grow x 2000 fuel q [[⟨0, none⟩]])) ∧ Tame (Indexer.open Json.codec d) := by
  obtain ⟨d, hd⟩ := History.exists (u := asciiUni) exCmd_usable [47] [⟨[116, 47, 112], 0, 22, some exText1⟩, ⟨[116, 47, 113], 0, 24, some exText2⟩] [] exCmd_fits
  change History asciiUni Json.codec exCmdConfig exCmdSessions d at hd
  obtain ⟨h1, h2, dmd, f, ns, h3, h4, h5, h6⟩ := C97_sessions exCmd_usable hd exCmd_fits
  let d' : Dir := fun f => match f with | .pos i => (d (.pos i)).map fun _ => [] | f => d f
  have hpos : ∀ i b, d' (.pos i) = some b → b = [] := by
    intro i b hb
    have : (d (.pos i)).map (fun _ => ([] : Bytes)) = some b := hb
    cases hq : d (.pos i) with
    | none => rw [hq] at this; cases this
    | some b' => rw [hq] at this; injection this with this; exact this.symm
  have hl : ∀ i k post h, ListAt d' i k post h → post = [] := by
    rintro i k post h ⟨_, _, _, _, g, _⟩
    exact hpos i post g
  have hcfg : Config.readFrom Json.codec d' = .ok exCmdConfig := h1
  obtain ⟨x, hx⟩ := (C97_open mergeSorter d').1.mpr ⟨exCmdConfig, dmd, f, ns, hcfg, h3, h4, h5, by decide, fun i hi => by
    obtain ⟨iix, post, es, g1, g2, g3, g4⟩ := h2 i hi
    exact ⟨iix, [], es, g1, (by show (d (.pos i)).map _ = _; rw [g2]; rfl), g3, g4⟩⟩
  have hc : x.config = exCmdConfig := by
    have := (openIndex_inv hx).1
    rw [hcfg] at this; injection this with this; exact this.symm
  have hwild : ∀ p, ¬ WildAt [] p := fun p ⟨_, _, h, _⟩ => number_nil h
  have hend : ∀ p, ¬ Endless [] p := by
    intro p h
    obtain ⟨q, n, v, r, ⟨g, _⟩, _⟩ := h 1
    exact number_nil g
  obtain ⟨o1, o2, o3⟩ := opened hx
  obtain ⟨q, k1, k2⟩ := C97_get_partial mergeSorter_isSorter hx (by rw [hc]; decide) (by rw [hc]; decide) h3 h4 h5 h6
  obtain ⟨q', K, k3, k4⟩ := C97_next_partial mergeSorter_isSorter hx (by rw [hc]; decide) (by rw [hc]; decide) h3 h4 h5 h6 (by
    intro i k post h _ hli m p _
    rw [hl i k post h hli]; exact hwild p)
  rw [k1] at k3; injection k3 with k3; subst k3
  refine ⟨d', x, q, K, hx, k1, fun b grow fuel hfu => ?_, fun grow fuel hfu => ?_, ?_⟩
  · have hlt : b.toNat % x.config.numShards.toNat < x.shards.length := by rw [o2]; exact Nat.mod_lt _ (by rw [hc]; decide)
    have hr := o3 _ _ (List.getElem?_eq_getElem hlt)
    have hli := hr.list (b.toNat / x.config.numShards.toNat % 65536) _ (List.getElem?_eq_getElem (by rw [hr.heads]; exact Nat.mod_lt _ (by decide)))
    have he := hl _ _ _ _ hli
    rw [he] at hli
    exact k2 grow ⟨b, none⟩ fuel _ _ hli (fun k p _ => hwild p) (.inr ⟨hend _, by simpa using hfu⟩)
  · refine k4 grow 2000 fuel _ (by simpa using hfu) ?_
    intro dst hds b hb
    simp only [List.mem_singleton] at hds
    subst hds
    simp only [List.mem_singleton] at hb
    subst hb
    refine .inr ⟨rfl, fun i k post h _ hli => ?_⟩
    rw [hl i k post h hli]
    exact ⟨hend h, by decide⟩
  · refine C97_append_partial d' ?_ ?_
    · intro c hc'
      rw [hcfg] at hc'; injection hc' with hc'; subst hc'
      refine ⟨by decide, by decide, by decide, fun i hi iix post hs g1 g2 g3 g4 h hh => .inr ?_⟩
      rw [hpos i post g2]
      refine ⟨hend h, ?_⟩
      rintro ⟨k, p, _, v, n, hnum, _⟩
      exact number_nil hnum
    · intro f' hf'
      have : some f = some f' := h4.symm.trans hf'
      injection this with this; subst this
      intro hst
      obtain ⟨t, t1, _⟩ := Fnames.read_of_table h5
      rw [Fnames.read_of_stray hst] at t1
      cases t1

end Dupi.Props
