import Verif.Proof.LiveGet
import Verif.Props.CrashAppend
/-! # Reading an index while documents are added: C54 -/

namespace Dupi.Props
open Spec

/-- `Get` of blot `b` on an open index, the files being read at the moments `m`, returns precisely `docs` -/
def AnswersL (y : Index) (q : QState) (m : Nat → Dir) (b : UInt32) (docs : List Document) : Prop :=
  ∀ grow fuel, docs.length < fuel → ∃ r, Query.getL grow y m fuel q ⟨b, none⟩ = .ok r ∧ r.blot = b ∧ r.vis = docs.map Document.shown

/-- the path of one of the documents, or of a directory above one -/
def KnownPath (docs : List Document) (p : Bytes) : Prop := ∃ s ∈ docs, s.path = p ∨ p ++ [47] <+: s.path

/-! ### Paths -/

theorem joinSlash_append (a b : List Bytes) (ha : a ≠ []) (hb : b ≠ []) : joinSlash (a ++ b) = joinSlash a ++ sep :: joinSlash b := by
  induction a with
  | nil => exact absurd rfl ha
  | cons x a ih =>
    cases a with
    | nil => rw [List.cons_append, List.nil_append, joinSlash_cons _ hb]; rfl
    | cons z a => rw [List.cons_append, joinSlash_cons _ (by simp), joinSlash_cons _ (by simp), ih (by simp)]; simp

theorem split_prefix (r r' : Bytes) : splitSlash r <+: splitSlash r' ↔ r' = r ∨ r ++ [sep] <+: r' := by
  constructor
  · intro ⟨t, ht⟩
    cases t with
    | nil => left; rw [List.append_nil] at ht; rw [← join_split r', ← ht, join_split]
    | cons z t =>
      right
      refine ⟨joinSlash (z :: t), ?_⟩
      rw [← join_split r', ← ht, joinSlash_append _ _ (splitSlash_ne_nil r) (by simp), join_split]; simp
  · rintro (rfl | ⟨t, rfl⟩)
    · exact List.prefix_refl _
    · rw [List.append_assoc, List.singleton_append, splitSlash_append]; exact List.prefix_append _ _

theorem parts_prefix {a b : List Document} (ha : Rooted a) (hb : Rooted b) {s t : Document} (hs : s ∈ a) (ht : t ∈ b) :
    Fnames.pathParts s.path <+: Fnames.pathParts t.path ↔ (t.path = s.path ∨ s.path ++ [47] <+: t.path) := by
  obtain ⟨cwd, p, h1⟩ := ha s hs
  obtain ⟨cwd', p', h2⟩ := hb t ht
  obtain ⟨r, h3, h4⟩ := Fnames.pathParts_abs cwd p
  obtain ⟨r', h5, h6⟩ := Fnames.pathParts_abs cwd' p'
  rw [h1, h2, h4, h6, split_prefix, h3, h5]
  simp [sep]

theorem comps_prefix {t : Fnames.Table} {i : Nat} {cs : List Bytes} (h : Fnames.Comps t i cs) : ∀ a, a <+: cs → ∃ k, Fnames.Comps t k a := by
  induction h with
  | root => intro a ha; exact ⟨0, by rw [List.prefix_nil.mp ha]; exact .root⟩
  | @step i n cs hi hn hc ih =>
    intro a ha
    by_cases e : a = cs ++ [n.name]
    · exact ⟨i, by rw [e]; exact .step hi hn hc⟩
    · apply ih a
      obtain ⟨r, hr⟩ := ha
      rcases List.eq_nil_or_concat r with rfl | ⟨l, z, rfl⟩
      · exact absurd (by rw [← hr]; simp) e
      · rw [List.concat_eq_append, ← List.append_assoc] at hr
        exact ⟨l, (List.append_inj_left' hr rfl)⟩

theorem comps_inside {t : Fnames.Table} (hw : Fnames.WF t) {i : Nat} {cs : List Bytes} (h : Fnames.Comps t i cs) : i < t.length := by
  cases h with
  | root => obtain ⟨r, hr, _⟩ := hw.root; exact (List.getElem?_eq_some_iff.mp hr).1
  | step _ hn _ => exact (List.getElem?_eq_some_iff.mp hn).1

/-- the table knows the paths of the documents, and no others -/
theorem known_iff {t : Fnames.Table} {fs : List Fields} {old docs : List Document} (hm : MetaRep t fs old) (ho : Rooted old) (hd : Rooted docs) {s : Document} (hs : s ∈ docs) :
    (∃ i, i < t.length ∧ Fnames.Comps t i (Fnames.pathParts s.path)) ↔ KnownPath old s.path := by
  constructor
  · intro ⟨i, _, hc⟩
    rcases hm.cover i _ hc with e | ⟨s', h1, h2⟩
    · obtain ⟨cwd, p, h1⟩ := hd s hs
      obtain ⟨r, h3, h4⟩ := Fnames.pathParts_abs cwd p
      rw [h1, h4] at e
      exact absurd e (splitSlash_ne_nil r)
    · exact ⟨s', h1, (parts_prefix hd ho hs h1).mp h2⟩
  · intro ⟨s', h1, h2⟩
    obtain ⟨k, hk⟩ := List.getElem?_of_mem h1
    obtain ⟨f, hf⟩ : ∃ f, fs[k]? = some f := ⟨_, List.getElem?_eq_getElem (by rw [hm.len]; exact (List.getElem?_eq_some_iff.mp hk).1)⟩
    obtain ⟨i, hi⟩ := comps_prefix (hm.desc k f s' hf hk).comps _ ((parts_prefix hd ho hs h1).mpr h2)
    exact ⟨i, comps_inside hm.wf hi, hi⟩

/-! ### Document ids -/

theorem ids_docs (p : Document → Bool) (a : List Document) : ∀ pre : List Document, (pre ++ a).length + 1 < 2 ^ 32 →
    (idsWith p (pre.length + 1) a).map (fun id => (pre ++ a)[id.toNat - 1]?) = (a.filter p).map some := by
  induction a with
  | nil => intro pre _; rfl
  | cons s a ih =>
    intro pre hl
    have := ih (pre ++ [s]) (by simpa using hl)
    simp only [List.length_append, List.length_cons, List.length_nil, List.append_assoc, List.cons_append, List.nil_append, Nat.zero_add] at this
    simp only [List.length_append, List.length_cons] at hl
    rw [idsWith]
    by_cases hp : p s
    · rw [if_pos hp, List.map_cons, this, List.filter_cons_of_pos hp, List.map_cons]
      congr 1
      have e : (UInt32.ofNat (pre.length + 1)).toNat - 1 = pre.length := by simp only [UInt32.toNat_ofNat']; omega
      rw [e]; simp
    · rw [if_neg hp, this, List.filter_cons_of_neg hp]

theorem bucketIds_docs (u : Uni) (c : Config) (docs : List Document) (hl : docs.length + 1 < 2 ^ 32) (b : Nat) :
    (bucketIds u c docs (b % c.numShards.toNat) (b / c.numShards.toNat % 65536)).map (fun id => docs[id.toNat - 1]?) = (found u c docs b).map some := by
  have e : b / c.numShards.toNat % 65536 * c.numShards.toNat + b % c.numShards.toNat = b % (c.numShards.toNat * 65536) := by
    rw [Nat.mod_mul, Nat.add_comm, Nat.mul_comm]
  have hp : (fun s : Document => hasBlot u c s.dat (b / c.numShards.toNat % 65536 * c.numShards.toNat + b % c.numShards.toNat)) =
      fun s : Document => hasBlot u c s.dat b := by
    funext s; unfold hasBlot; rw [e]; simp only [Nat.mod_mod]
  have := ids_docs (fun s => hasBlot u c s.dat b) docs [] (by simpa using hl)
  simp only [List.nil_append, List.length_nil, Nat.zero_add] at this
  unfold bucketIds found
  rw [hp]
  exact this

/-! ### The reads of an index whose files do not change -/

theorem readVarintAtLoopL_const (f : Bytes) (p : Int) (fuel : Nat) : ∀ acc, readVarintAtLoopL (fun _ => f) p fuel acc = readVarintAtLoop f p fuel acc := by
  induction fuel with
  | zero => intro acc; rfl
  | succ n ih =>
    intro acc
    simp only [readVarintAtLoopL, readVarintAtLoop, ih]

theorem nextL_const (f : Bytes) (p : Posts) : p.nextL (fun _ => f) = p.next f := by
  have h1 : ∀ pos, readVarintAtL (fun _ => f) pos = readVarintAt f pos := by
    intro pos
    unfold readVarintAtL readVarintAt
    rw [readVarintAtLoopL_const]
  have h2 : p.readNextL (fun _ => f) = p.readNext f := by
    unfold Posts.readNextL Posts.readNext
    rw [h1]
  unfold Posts.nextL Posts.next
  rw [h2]
  rfl

/-- the index with the files of `d` in place of those it was opened with -/
def Index.over (y : Index) (d : Dir) : Index :=
  { y with dmd := d.contents .dmd, shards := y.shards.mapIdx fun j s => { s with file := d.contents (.pos j) } }

theorem getLoopL_const (grow : Nat → Nat) (y : Index) (d : Dir) (j : Nat) (lim : Bool) (fuel : Nat) : ∀ (t : Nat) (rs : ReadState) (b : Blot),
    Query.getLoopL grow y (fun _ => d) j lim fuel t rs.posts b = Query.getLoop grow (Index.over y d) lim fuel { rs with file := d.contents (.pos j) } b := by
  induction fuel with
  | zero => intro t rs b; rfl
  | succ n ih =>
    intro t rs b
    simp only [Query.getLoopL, Query.getLoop, ReadState.next, nextL_const]
    split
    · rfl
    · cases h : rs.posts.next (d.contents (.pos j)) with
      | error e =>
        simp only [bind, Except.bind]
        rcases e with e | _ | _
        · cases e <;> rfl
        · rfl
        · rfl
      | ok r =>
        simp only [bind, Except.bind, pure, Except.pure]
        cases hb : b.next grow lim with
        | error e => rfl
        | ok b1 =>
          simp only []
          have : Index.docid2DocL y d r.1 = (Index.over y d).docid2Doc r.1 := rfl
          rw [this]
          cases (Index.over y d).docid2Doc r.1 with
          | error e => rcases e with e | _ | _ <;> rfl
          | ok v => exact ih (t + 12) { rs with posts := r.2 } (b1.setLast v)

/-- **C54**, the model: if all reads find the same files, `Get` is `Get` on an index that holds these files. -/
theorem C54_constant (grow : Nat → Nat) (y : Index) (d : Dir) (fuel : Nat) (q : QState) (b : Blot) :
    Query.getL grow y (fun _ => d) fuel q b = Query.get grow (Index.over y d) fuel q b := by
  simp only [Query.getL, Query.get]
  split
  · rfl
  · simp only [Index.over, List.getElem?_mapIdx]
    cases hs : y.shards[(b.blot % q.n).toNat]? with
    | none => rfl
    | some s =>
      simp only [Option.map_some, ShardIndex.readStateFor, ShardIndex.readStateForBlotAt]
      cases s.heads[(b.blot / q.n).toUInt16.toNat]? with
      | none => rfl
      | some hd =>
        cases s.counts[(b.blot / q.n).toUInt16.toNat]? with
        | none => rfl
        | some ct => exact getLoopL_const grow y d _ _ fuel 0 ⟨s.id, _, 0, ct, Posts.new hd, s.file⟩ b

section
variable {u : Uni} {J : CfgCodec} {srt : Sorter} {c : Config} (hU : Usable J c) (hsrt : IsSorter srt)
variable {h : Sessions} {d : Dir} {x : Indexer} {cwd : Bytes} {new : List Doc} {tr : Trace} {d' : Dir} (A : Adding u J c h d x cwd new tr d')
variable {y : Index} (hy : Index.open J srt d = .ok y) {q : QState} (hq : y.startQuery = .ok q)

include hU A hy in
/-- the metadata of the documents of the completed sessions, at any moment -/
theorem Adding.oldDoc {cd : Dir} (F : Appending.Found d d' cd J c) {id : UInt32} (h1 : 1 ≤ id.toNat) (h2 : id.toNat ≤ (documents h).length) :
    y.docid2DocL cd id = .ok (metaOf (documents h) id) := by
  have A' := A.appending hU
  obtain ⟨i1, i2, ⟨f, i3, i4⟩, i5⟩ := openIndex_inv hy
  obtain ⟨a, b', d1, d2⟩ := F.dmd
  exact A'.docid hU d1 (y := { y with dmd := cd.contents .dmd }) (b := b') (by simp [Dir.contents, d2]) i4 (.inl i3) (added_rooted cwd new) h1 h2

include hU A hy in
/-- what the reader has in memory for the bucket of a blot, in terms of the blocks of its posting file -/
theorem Adding.head (b : UInt32) {bs : List Blk} {ps : List Poster} (h2 : d (.iix (b.toNat % c.numShards.toNat)) = some (ps.flatMap ShardIndexer.iixEntry))
    (h3 : ClosedRep 65536 bs ps (postings (shardPosts u c (b.toNat % c.numShards.toNat) 1 (documents h)))) (h4 : (render 0 bs).length < 2 ^ 63) :
    ∃ sh ct, y.config = c ∧ y.shards[b.toNat % c.numShards.toNat]? = some sh ∧
      sh.heads[b.toNat / c.numShards.toNat % 65536]? = some (nextOff (b.toNat / c.numShards.toNat % 65536) 0 bs) ∧
      sh.counts[b.toNat / c.numShards.toNat % 65536]? = some ct ∧
      bucketIds u c (documents h) (b.toNat % c.numShards.toNat) (b.toNat / c.numShards.toNat % 65536) = runSum 0 (flushed (b.toNat / c.numShards.toNat % 65536) bs) := by
  have A' := A.appending hU
  have hn := hU.shards
  have hj : b.toNat % c.numShards.toNat < c.numShards.toNat := Nat.mod_lt _ (by omega)
  have ho : b.toNat / c.numShards.toNat % 65536 < 65536 := Nat.mod_lt _ (by decide)
  obtain ⟨i1, i2, ⟨f, i3, i4⟩, i5⟩ := openIndex_inv hy
  rw [Appending.readFrom hU A'.dir.cfg] at i1
  injection i1 with i1
  rw [← i1] at i5
  obtain ⟨j1, j2⟩ := indexShards_inv _ i5
  obtain ⟨s, hs⟩ : ∃ s, y.shards[b.toNat % c.numShards.toNat]? = some s := ⟨_, List.getElem?_eq_getElem (by rw [j1]; exact hj)⟩
  obtain ⟨iix, post, k1, k2, k3⟩ := j2 _ s hs
  rw [Nat.zero_add, h2] at k1
  injection k1 with k1
  rw [← k1] at k3
  obtain ⟨ct, q1, q2, _, q3⟩ := init_head h3 h4 k3 ho
  obtain ⟨e1, e2⟩ := postings_found (u := u) hU A'.fits.left.ids b
  exact ⟨s, ct, i1.symm, hs, q1, q2, by rw [← e1, q3]⟩

include hU A hy hq hsrt in
/-- blocks of the bucket of `b` that nobody touches -/
theorem Adding.quiet {m : Nat → Dir} (b : UInt32) (hF : ∀ t, Appending.Found d d' (m t) J c)
    {bs : List Blk} {ps : List Poster} (h1 : d (.pos (b.toNat % c.numShards.toNat)) = some (render 0 bs))
    (h2 : d (.iix (b.toNat % c.numShards.toNat)) = some (ps.flatMap ShardIndexer.iixEntry))
    (h3 : ClosedRep 65536 bs ps (postings (shardPosts u c (b.toNat % c.numShards.toNat) 1 (documents h)))) (h4 : (render 0 bs).length < 2 ^ 63)
    (hpos : ∀ t, ∃ ops, m t (.pos (b.toNat % c.numShards.toNat)) = onFiles (d (.pos (b.toNat % c.numShards.toNat))) ops ∧
      Miss (b.toNat / c.numShards.toNat % 65536) bs (.pos (b.toNat % c.numShards.toNat)) ops) :
    AnswersL y q m b (found u c (documents h) b.toNat) := by
  have A' := A.appending hU
  have hn := hU.shards
  have hn' := hU.shardsSmall
  obtain ⟨q', q1, q2⟩ := startQuery_opened hsrt hy
  rw [hq] at q1
  injection q1 with q1
  subst q1
  obtain ⟨sh, ct, r1, r2, r3, r4, r5⟩ := A.head hU hy b h2 h3 h4
  rw [r1] at q2
  have hlen := bucketIds_length_found u c _ A'.fits.left.ids b.toNat
  have hids := A'.fits.left.ids
  rw [render_length] at h4
  intro grow fuel hf
  rw [getL_bucket (by omega) (by omega) ⟨b, none⟩ r2 r3 r4 grow m fuel q2]
  have hL : Left (b.toNat / c.numShards.toNat % 65536) 0 bs (Posts.new (nextOff (b.toNat / c.numShards.toNat % 65536) 0 bs))
      (bucketIds u c (documents h) (b.toNat % c.numShards.toNat) (b.toNat / c.numShards.toNat % 65536)) :=
    ⟨h3.wf, by omega, rfl, by simp [Posts.new], by simpa [Posts.new] using r5⟩
  obtain ⟨r, k1, k2, k3⟩ := Query.getLoopL_quiet (x := y) (m := m) (j := b.toNat % c.numShards.toNat) (D := metaOf (documents h)) grow _ fuel 0 ⟨b, none⟩ hL (fun t => by
      obtain ⟨ops, o1, o2⟩ := hpos t
      obtain ⟨f, f1, f2⟩ := Miss.covers (f := render 0 bs) ops o2 (by have := Covers.render (b.toNat / c.numShards.toNat % 65536) bs [] []; simpa using this)
      rw [← h1, ← o1] at f1
      simpa [Dir.contents, f1] using f2) (fun id hid t => by
      obtain ⟨m1, m2⟩ := idsWith_mem _ (documents h) 1 (by omega) id hid
      exact A.oldDoc hU hy (hF t) (by omega) (by omega)) (by omega)
  exact ⟨r, k1, k2, by rw [k3, ← bucketIds_found u c _ A'.fits.left.ids]; rfl⟩

include hU A hsrt hy hq in
/-- **C54**, the part of it that holds at every moment.  An index is open for reading while another process adds
documents; each read of a file happens at any moment of that session, in any order of the moments, also in the
middle of a write.  `Get` of each blot that no new document has returns precisely the documents that were in the
index when it was opened and have the blot. -/
theorem C54_quiet_partial {m : Nat → Dir} (hm : ∀ t, Trace.Crashed c.numShards.toNat tr d (m t)) {b : UInt32}
    (hb : found u c (added cwd new) b.toNat = []) : AnswersL y q m b (found u c (documents h) b.toNat) := by
  have A' := A.appending hU
  have hn := hU.shards
  have hj : b.toNat % c.numShards.toNat < c.numShards.toNat := Nat.mod_lt _ (by omega)
  obtain ⟨bs, ps, ws, wsc, ps', h1, h2, h3, h4, h5, h6, h7, h8, h9⟩ := A'.shard hU hj
  obtain ⟨h9, h9'⟩ := h9 _ (Nat.mod_lt (b.toNat / c.numShards.toNat) (by decide))
  rw [few (J := J) hU A'.fits.ids b, hb] at h9 h9'
  refine A.quiet hU hsrt hy hq b (fun t => (A'.crashed hU (hm t)).1) h1 h2 h3 h4 fun t => ?_
  rcases (A'.crashed hU (hm t)).2 _ hj with ⟨s, s1, s2⟩ | ⟨s, s1, s2⟩
  · exact ⟨s, s2, Miss.cut s1 (h9 (by simp))⟩
  · refine ⟨tr.serve _ ++ s, by rw [s2, onFiles_append], (h9 (by simp)).append (Miss.cut s1 ?_)⟩
    rw [h6, opsOn_append, (posOps_on _ _).opsOn, Off.opsOn (by
      intro op hop
      rcases List.mem_cons.mp hop with rfl | hop
      · exact nofun
      · rw [writes_on _ _ _ op hop]; exact nofun), List.append_nil]
    exact h9' rfl

include hU A hsrt hy hq in
/-- **C54**, the same for blots that at most 102 new documents have, while documents are added (`Add`) and until the
shards are closed -/
theorem C54_few_partial {m : Nat → Dir} (hm : ∀ t, Trace.Crashed c.numShards.toNat { tr with shard := fun _ => [] } d (m t)) {b : UInt32}
    (hb : (found u c (added cwd new) b.toNat).length ≤ 102) : AnswersL y q m b (found u c (documents h) b.toNat) := by
  have A' := A.appending hU
  have hn := hU.shards
  have hj : b.toNat % c.numShards.toNat < c.numShards.toNat := Nat.mod_lt _ (by omega)
  obtain ⟨bs, ps, ws, wsc, ps', h1, h2, h3, h4, h5, h6, h7, h8, h9⟩ := A'.shard hU hj
  obtain ⟨h9, h9'⟩ := h9 _ (Nat.mod_lt (b.toNat / c.numShards.toNat) (by decide))
  rw [few (J := J) hU A'.fits.ids b] at h9 h9'
  have hs : ∀ t, Appending.Found d d' (m t) J c ∧ ∃ s, Cut (tr.serve (b.toNat % c.numShards.toNat)) s ∧
      m t (.pos (b.toNat % c.numShards.toNat)) = onFiles (d (.pos (b.toNat % c.numShards.toNat))) s := by
    intro t
    have hset : tr.setup = [] := A'.run.rep.setup
    generalize m t = cd, hm t = hc
    cases hc with
    | setup h =>
      simp only [hset] at h
      cases h
      exact ⟨(A'.crashed hU (.setup .stop)).1, [], .stop, rfl⟩
    | @adding a s ops ha hs hi =>
      simp only [hset, List.nil_append]
      obtain ⟨F, _, g⟩ := A'.adding_found hU ha hs hi
      exact ⟨F, s _, hs _ hj, (g _ hj).2⟩
    | @closing ops cs hi hc =>
      simp only [hset, List.nil_append]
      obtain ⟨F, g⟩ := A'.closing_found hU hi hc
      exact ⟨F, _, Cut.refl _, (g _ hj).2⟩
    | @shards s ops ops' hi hs hi' =>
      simp only [hset, List.nil_append]
      have : ops' = [] := by
        rw [List.eq_nil_iff_forall_not_mem]
        intro op hop
        obtain ⟨l, hl, hop⟩ := hi'.mem op hop
        obtain ⟨j, hj, rfl⟩ := List.mem_map.mp hl
        have hcut := hs j (List.mem_range.mp hj)
        simp only at hcut
        generalize s j = l at hcut hop
        cases hcut
        simp at hop
      rw [this, List.append_nil]
      obtain ⟨F, g⟩ := A'.closing_found hU hi (Cut.refl _)
      exact ⟨F, _, Cut.refl _, (g _ hj).2⟩
  refine A.quiet hU hsrt hy hq b (fun t => (hs t).1) h1 h2 h3 h4 fun t => ?_
  obtain ⟨_, s, s1, s2⟩ := hs t
  exact ⟨s, s2, Miss.cut s1 (h9 (by omega))⟩

include hU A hy in
/-- what the reader finds about a document of the old or the new index -/
theorem Adding.anyDoc : ∀ id : UInt32, 1 ≤ id.toNat → id.toNat ≤ (documents h ++ added cwd new).length →
    ∃ s, (documents h ++ added cwd new)[id.toNat - 1]? = some s ∧
      (∀ cd, Trace.Seen c.numShards.toNat tr d cd →
        (y.docid2DocL cd id = .ok (metaOf (documents h ++ added cwd new) id) ∧ KnownPath (documents h) s.path) ∨ Errs (y.docid2DocL cd id) ∨
          (y.docid2DocL cd id = panic' ∧ ¬ KnownPath (documents h) s.path)) ∧
      ((y.docid2DocL d' id = .ok (metaOf (documents h ++ added cwd new) id) ∧ KnownPath (documents h) s.path) ∨
          (y.docid2DocL d' id = panic' ∧ ¬ KnownPath (documents h) s.path)) := by
  intro id h1 h2
  have A' := A.appending hU
  obtain ⟨t', fs, fs', o1, o2, o3, o4, o5, o6, o7⟩ := A'.metas hU hy
  have hroot : Rooted (documents h ++ added cwd new) := by
    intro s hs
    rcases List.mem_append.mp hs with h | h
    · exact A'.rooted s h
    · exact added_rooted cwd new s h
  obtain ⟨s, hs⟩ : ∃ s, (documents h ++ added cwd new)[id.toNat - 1]? = some s := ⟨_, List.getElem?_eq_getElem (by omega)⟩
  have hk := known_iff o2 A'.rooted hroot (List.mem_of_getElem? hs)
  have key : ∀ f cd, cd .dmd = some f → f <+: (Dmd.zeroFields :: fs').flatMap Dmd.encode →
      (y.docid2DocL cd id = .ok (metaOf (documents h ++ added cwd new) id) ∧ KnownPath (documents h) s.path) ∨
      (id.toNat * 12 + 12 > f.length ∧ Errs (y.docid2DocL cd id)) ∨ (y.docid2DocL cd id = panic' ∧ ¬ KnownPath (documents h) s.path) := by
    intro f cd hcd hp
    have hc : cd.contents .dmd = f := by simp [Dir.contents, hcd]
    obtain ⟨s', hs', H⟩ := docid_older o1 o3 hroot (y := { y with dmd := cd.contents .dmd }) rfl (by rw [hc]; exact hp) h1 h2
    rw [hs] at hs'
    injection hs' with hs'
    subst hs'
    rw [hc] at H
    rcases H with ⟨g1, g2⟩ | g | ⟨g1, g2⟩
    · exact .inl ⟨by rw [← g1]; simp [Index.docid2DocL, hc], hk.mp g2⟩
    · refine .inr (.inl ⟨g.1, ?_⟩)
      have := g.2
      simpa [Index.docid2DocL, hc] using this
    · refine .inr (.inr ⟨by rw [← g1]; simp [Index.docid2DocL, hc], fun hkn => ?_⟩)
      obtain ⟨i, i1, i2⟩ := hk.mpr hkn
      exact g2 i i1 i2
  refine ⟨s, hs, fun cd hcd => ?_, ?_⟩
  · have : ∃ f, cd .dmd = some f ∧ f <+: (Dmd.zeroFields :: fs').flatMap Dmd.encode := by
      rcases (A'.seen hU hcd).1 with ⟨s, s1, s2⟩ | ⟨s, s1, s2⟩
      · obtain ⟨f, f1, _, f2⟩ := o6 s s1
        exact ⟨f, by rw [s2, f1], f2⟩
      · obtain ⟨f, f1, _, f2⟩ := o7 s s1
        exact ⟨f, by rw [s2, f1], f2⟩
    obtain ⟨f, f1, f2⟩ := this
    rcases key f cd f1 f2 with g | ⟨_, g⟩ | g
    · exact .inl g
    · exact .inr (.inl g)
    · exact .inr (.inr g)
  · rcases key _ d' o5 (List.prefix_refl _) with g | ⟨g, _⟩ | g
    · exact .inl g
    · rw [Dmd.encodeAll_length, List.length_cons, o3.len] at g
      omega
    · exact .inr g

include hU A hsrt hy hq in
/-- **C54**, what holds for all blots.  Each read happens at any moment of the session (between two writes), or after it.
If `Get` returns, then it returns the documents that were in the index when it was opened and have the blot, and
after them perhaps the first few of the new ones that have it.  Otherwise it returns an error, or it panics; the
latter only if a new document with the blot has a path that is neither one of the old ones nor a directory above one. -/
theorem C54_sound_partial {m : Nat → Dir} (hm : ∀ t, Trace.Seen c.numShards.toNat tr d (m t)) (b : UInt32)
    (grow : Nat → Nat) {fuel : Nat} (hfuel : (found u c (documents h ++ added cwd new) b.toNat).length < fuel) :
    (∃ r k, Query.getL grow y m fuel q ⟨b, none⟩ = .ok r ∧ r.blot = b ∧
      r.vis = (found u c (documents h) b.toNat ++ (found u c (added cwd new) b.toNat).take k).map Document.shown ∧
      ∀ s ∈ (found u c (added cwd new) b.toNat).take k, KnownPath (documents h) s.path) ∨
    (∃ e, Query.getL grow y m fuel q ⟨b, none⟩ = fail e) ∨
    (Query.getL grow y m fuel q ⟨b, none⟩ = panic' ∧ ∃ s ∈ found u c (added cwd new) b.toNat, ¬ KnownPath (documents h) s.path) := by
  have A' := A.appending hU
  have hn := hU.shards
  have hn' := hU.shardsSmall
  have hj : b.toNat % c.numShards.toNat < c.numShards.toNat := Nat.mod_lt _ (by omega)
  have ho : b.toNat / c.numShards.toNat % 65536 < 65536 := Nat.mod_lt _ (by decide)
  obtain ⟨q', q1, q2⟩ := startQuery_opened hsrt hy
  rw [hq] at q1
  injection q1 with q1
  subst q1
  obtain ⟨bs, bs', sh, hd, ct, r1, r2, r3, r4, r5, r6, r7, r8, r9, r10, r11, r12, r13, r14⟩ := A'.reader hU hy hj ho
  rw [r1] at q2
  obtain ⟨e1, e2⟩ := postings_found (u := u) hU A'.fits.ids b
  obtain ⟨_, e4⟩ := postings_found (u := u) hU A'.fits.left.ids b
  have hids := A'.fits.ids
  rw [e4, e1] at r12
  rw [e1] at e2
  have hdocs := bucketIds_docs u c _ hids b.toNat
  have hmap := bucketIds_found u c _ hids b.toNat
  rw [getL_bucket (by omega) (by omega) ⟨b, none⟩ r2 r3 r4 grow m fuel q2]
  have hloop := Query.getLoopL_chase (x := y) (m := m) (j := b.toNat % c.numShards.toNat) (D := metaOf (documents h ++ added cwd new)) grow r5 r6
    (fun t => by obtain ⟨f, f1, f2⟩ := r13 _ (hm t); simpa [Dir.contents, f1] using f2)
    (K := fun id => ∀ s, (documents h ++ added cwd new)[id.toNat - 1]? = some s → KnownPath (documents h) s.path) fuel 0 ⟨b, none⟩ r12 (fun id hid t => by
      obtain ⟨m1, m2⟩ := idsWith_mem _ (documents h ++ added cwd new) 1 (by omega) id hid
      obtain ⟨s, s1, s2, _⟩ := A.anyDoc hU hy id (by omega) (by omega)
      rcases s2 _ (hm t) with ⟨g1, g2⟩ | g | ⟨g1, g2⟩
      · refine .inl ⟨g1, fun s' hs' => ?_⟩
        rw [s1] at hs'
        injection hs' with hs'
        rw [← hs']; exact g2
      · exact .inr (.inl g)
      · exact .inr (.inr ⟨g1, fun hK => g2 (hK s s1)⟩)) (by omega)
  rcases hloop with ⟨r, k, k1, k2, k3, k4, k5, k6⟩ | he | ⟨hp, id, i1, i2⟩
  · refine .inl ⟨r, k - (found u c (documents h) b.toNat).length, k1, k4, ?_, fun s hs => ?_⟩
    · rw [k5, List.map_take, hmap, found_append, ← List.map_take, List.take_append]
      rw [List.take_of_length_le k2]
      rfl
    · have hs' : s ∈ (found u c (documents h ++ added cwd new) b.toNat).take k := by
        rw [found_append, List.take_append]; exact List.mem_append_right _ hs
      have : some s ∈ ((bucketIds u c (documents h ++ added cwd new) (b.toNat % c.numShards.toNat) (b.toNat / c.numShards.toNat % 65536)).take k).map
          (fun id => (documents h ++ added cwd new)[id.toNat - 1]?) := by
        rw [List.map_take, hdocs, ← List.map_take]; exact List.mem_map_of_mem hs'
      obtain ⟨id, i1, i2⟩ := List.mem_map.mp this
      exact k6 id i1 s i2
  · exact .inr (.inl he)
  · refine .inr (.inr ⟨hp, ?_⟩)
    have := List.mem_map_of_mem (f := fun id : UInt32 => (documents h ++ added cwd new)[id.toNat - 1]?) i1
    rw [hdocs] at this
    obtain ⟨s, s1, s2⟩ := List.mem_map.mp this
    have hns : ¬ KnownPath (documents h) s.path := by
      intro hk
      apply i2
      intro s' hs'
      rw [← s2] at hs'
      injection hs' with hs'
      rw [← hs']; exact hk
    rw [found_append] at s1
    rcases List.mem_append.mp s1 with s1 | s1
    · exact absurd ⟨s, (List.mem_filter.mp s1).1, .inl rfl⟩ hns
    · exact ⟨s, s1, hns⟩

include hU A hsrt hy hq in
/-- **C54**, blots that no document had when the index was opened: whatever happens to the files, `Get` returns nothing. -/
theorem C54_absent_partial (m : Nat → Dir) {b : UInt32} (hb : found u c (documents h) b.toNat = []) : AnswersL y q m b [] := by
  have A' := A.appending hU
  have hn := hU.shards
  have hn' := hU.shardsSmall
  have hj : b.toNat % c.numShards.toNat < c.numShards.toNat := Nat.mod_lt _ (by omega)
  have ho : b.toNat / c.numShards.toNat % 65536 < 65536 := Nat.mod_lt _ (by decide)
  obtain ⟨q', q1, q2⟩ := startQuery_opened hsrt hy
  rw [hq] at q1
  injection q1 with q1
  subst q1
  obtain ⟨bs, bs', sh, hd, ct, r1, r2, r3, r4, r5, r6, r7, r8, r9, r10, _⟩ := A'.reader hU hy hj ho
  rw [r1] at q2
  obtain ⟨e1, e2⟩ := postings_found (u := u) hU A'.fits.left.ids b
  rw [hb] at e2
  rw [List.length_eq_zero_iff.mp e2] at r10
  intro grow fuel hf
  obtain ⟨f, rfl⟩ : ∃ f, fuel = f + 1 := ⟨fuel - 1, by simp at hf; omega⟩
  rw [getL_bucket (by omega) (by omega) ⟨b, none⟩ r2 r3 r4 grow m (f + 1) q2]
  exact ⟨⟨b, none⟩, by simp [Query.getLoopL, r10.eof, fail], rfl, rfl⟩

include hU A hsrt hy hq in
/-- the bucket of a blot after the session, for a blot that an old document has -/
theorem Adding.after {b : UInt32} (hold : found u c (documents h) b.toNat ≠ []) : ∃ bs' hd,
    (∀ grow fuel, Query.getL grow y (fun _ => d') fuel q ⟨b, none⟩ =
      Query.getLoopL grow y (fun _ => d') (b.toNat % c.numShards.toNat) false fuel 0 (Posts.new hd) ⟨b, none⟩) ∧
    Left (b.toNat / c.numShards.toNat % 65536) 0 bs' (Posts.new hd)
      (bucketIds u c (documents h ++ added cwd new) (b.toNat % c.numShards.toNat) (b.toNat / c.numShards.toNat % 65536)) ∧
    Covers (b.toNat / c.numShards.toNat % 65536) (d'.contents (.pos (b.toNat % c.numShards.toNat))) 0 bs' := by
  have A' := A.appending hU
  have hn := hU.shards
  have hn' := hU.shardsSmall
  have hj : b.toNat % c.numShards.toNat < c.numShards.toNat := Nat.mod_lt _ (by omega)
  have ho : b.toNat / c.numShards.toNat % 65536 < 65536 := Nat.mod_lt _ (by decide)
  obtain ⟨q', q1, q2⟩ := startQuery_opened hsrt hy
  rw [hq] at q1
  injection q1 with q1
  subst q1
  obtain ⟨bs, bs', sh, hd, ct, r1, r2, r3, r4, r5, r6, r7, r8, r9, r10, r11, _⟩ := A'.reader hU hy hj ho
  rw [r1] at q2
  obtain ⟨_, e2⟩ := postings_found (u := u) hU A'.fits.left.ids b
  obtain ⟨e1, _⟩ := postings_found (u := u) hU A'.fits.ids b
  rw [e1] at r11
  refine ⟨bs', hd, fun grow fuel => getL_bucket (by omega) (by omega) ⟨b, none⟩ r2 r3 r4 grow _ fuel q2, r11 ?_, ?_⟩
  · intro e
    rw [e] at e2
    exact hold (List.length_eq_zero_iff.mp e2.symm)
  · have := Covers.render (b.toNat / c.numShards.toNat % 65536) bs' [] []
    simpa [Dir.contents, r8] using this

include hU A hsrt hy hq in
/-- **C54 is false of the code**, first reason: after the session the reader finds new documents too, if the blot was in
the index when it was opened and the paths of the new documents were. -/
theorem C54_false_new {b : UInt32} (hold : found u c (documents h) b.toNat ≠ [])
    (hk : ∀ s ∈ found u c (added cwd new) b.toNat, KnownPath (documents h) s.path) :
    AnswersL y q (fun _ => d') b (found u c (documents h) b.toNat ++ found u c (added cwd new) b.toNat) := by
  have A' := A.appending hU
  have hids := A'.fits.ids
  obtain ⟨bs', hd, h1, h2, h3⟩ := A.after hU hsrt hy hq hold
  have hlen := bucketIds_length_found u c _ hids b.toNat
  have hdocs := bucketIds_docs u c _ hids b.toNat
  intro grow fuel hf
  rw [← found_append] at hf ⊢
  obtain ⟨r, k1, k2, k3⟩ := Query.getLoopL_quiet (x := y) (m := fun _ => d') (j := b.toNat % c.numShards.toNat) (D := metaOf (documents h ++ added cwd new)) grow _ fuel 0 ⟨b, none⟩ h2
    (fun _ => h3) (fun id hid _ => by
      obtain ⟨m1, m2⟩ := idsWith_mem _ (documents h ++ added cwd new) 1 (by omega) id hid
      obtain ⟨s, s1, _, s2⟩ := A.anyDoc hU hy id (by omega) (by omega)
      rcases s2 with ⟨g1, _⟩ | ⟨_, g2⟩
      · exact g1
      · exfalso
        have := List.mem_map_of_mem (f := fun id : UInt32 => (documents h ++ added cwd new)[id.toNat - 1]?) hid
        rw [hdocs, s1] at this
        obtain ⟨s', i1, i2⟩ := List.mem_map.mp this
        injection i2 with i2
        subst i2
        rw [found_append] at i1
        rcases List.mem_append.mp i1 with i1 | i1
        · exact g2 ⟨s', (List.mem_filter.mp i1).1, .inl rfl⟩
        · exact g2 (hk s' i1)) (by omega)
  exact ⟨r, by rw [h1, k1], k2, by rw [k3, ← bucketIds_found u c _ hids]; rfl⟩

include hU A hsrt hy hq in
/-- **C54 is false of the code**, second reason: the table of paths in memory is that of the old index (index.go:55-66),
and a new document's path need not be in it.  After every session in which a document at a new path is added,
`Get` of a blot that this document and one of the old documents have panics (fnames.go:57). -/
theorem C54_false_panic {b : UInt32} (hold : found u c (documents h) b.toNat ≠ []) {s : Document} (hs : s ∈ found u c (added cwd new) b.toNat)
    (hk : ¬ KnownPath (documents h) s.path) (grow : Nat → Nat) {fuel : Nat} (hf : (found u c (documents h ++ added cwd new) b.toNat).length < fuel) :
    Query.getL grow y (fun _ => d') fuel q ⟨b, none⟩ = panic' := by
  have A' := A.appending hU
  have hids := A'.fits.ids
  obtain ⟨bs', hd, h1, h2, h3⟩ := A.after hU hsrt hy hq hold
  have hlen := bucketIds_length_found u c _ hids b.toNat
  have hdocs := bucketIds_docs u c _ hids b.toNat
  rw [h1]
  refine Query.getLoopL_panic (D := metaOf (documents h ++ added cwd new)) grow _ fuel 0 ⟨b, none⟩ h2 (fun _ => h3) (fun id hid _ => ?_) ?_ (by omega)
  · obtain ⟨m1, m2⟩ := idsWith_mem _ (documents h ++ added cwd new) 1 (by omega) id hid
    obtain ⟨s, s1, _, s2⟩ := A.anyDoc hU hy id (by omega) (by omega)
    rcases s2 with ⟨g, _⟩ | ⟨g, _⟩
    · exact .inl g
    · exact .inr g
  · have : some s ∈ (bucketIds u c (documents h ++ added cwd new) (b.toNat % c.numShards.toNat) (b.toNat / c.numShards.toNat % 65536)).map
        (fun id => (documents h ++ added cwd new)[id.toNat - 1]?) := by
      rw [hdocs, found_append]; exact List.mem_map_of_mem (List.mem_append_right _ hs)
    obtain ⟨id, i1, i2⟩ := List.mem_map.mp this
    obtain ⟨m1, m2⟩ := idsWith_mem _ (documents h ++ added cwd new) 1 (by omega) id i1
    obtain ⟨s', s1, _, s2⟩ := A.anyDoc hU hy id (by omega) (by omega)
    rw [s1] at i2
    injection i2 with i2
    subst i2
    rcases s2 with ⟨_, g⟩ | ⟨g, _⟩
    · exact absurd g hk
    · exact ⟨id, i1, fun _ => g⟩

theorem fill_found {docs : List Document} (s : List Doc) : ∀ (ids : List UInt32) (fs : List Document),
    ids.map (fun id => Doc.ofMeta (metaOf docs id)) = fs.map Document.shown →
    List.zipWith (fun d id => d.fill (metaOf docs id)) s ids = List.zipWith (fun d m => ⟨m.path, m.start, m.stop, d.dat⟩) s fs := by
  induction s with
  | nil => intro ids fs _; simp
  | cons d s ih =>
    intro ids fs this
    cases ids with
    | nil => cases fs with
      | nil => rfl
      | cons => simp at this
    | cons i ids => cases fs with
      | nil => simp at this
      | cons f fs =>
        simp only [List.map_cons, List.cons.injEq] at this
        rw [List.zipWith_cons_cons, List.zipWith_cons_cons, ih ids fs this.2]
        congr 1
        have := this.1
        simp only [Doc.ofMeta, Document.shown, Doc.mk.injEq] at this
        simp only [Doc.fill, this]

include hU A hsrt hy hq in
/-- **C54**, what holds for all blots when `Get` is given a slice with unused capacity `s`: if it returns, then it has
filled the first `k` places with the first `k` of the old and new documents, in this order; it has stopped
before the last of the old ones only if there was no more place. -/
theorem C54_limited_partial {m : Nat → Dir} (hm : ∀ t, Trace.Seen c.numShards.toNat tr d (m t)) (b : UInt32) (v s : List Doc)
    (grow : Nat → Nat) {fuel : Nat} (hfuel : (found u c (documents h ++ added cwd new) b.toNat).length < fuel) :
    (∃ k, Query.getL grow y m fuel q ⟨b, some ⟨v, s⟩⟩ =
        .ok ⟨b, some ⟨v ++ List.zipWith (fun d m => ⟨m.path, m.start, m.stop, d.dat⟩) s ((found u c (documents h) b.toNat ++ found u c (added cwd new) b.toNat).take k), s.drop k⟩⟩ ∧
      ((found u c (documents h) b.toNat).length ≤ k ∨ k = s.length) ∧ k ≤ s.length) ∨
    (∃ e, Query.getL grow y m fuel q ⟨b, some ⟨v, s⟩⟩ = fail e) ∨
    (Query.getL grow y m fuel q ⟨b, some ⟨v, s⟩⟩ = panic' ∧ ∃ s ∈ found u c (added cwd new) b.toNat, ¬ KnownPath (documents h) s.path) := by
  have A' := A.appending hU
  have hn := hU.shards
  have hn' := hU.shardsSmall
  have hj : b.toNat % c.numShards.toNat < c.numShards.toNat := Nat.mod_lt _ (by omega)
  have ho : b.toNat / c.numShards.toNat % 65536 < 65536 := Nat.mod_lt _ (by decide)
  obtain ⟨q', q1, q2⟩ := startQuery_opened hsrt hy
  rw [hq] at q1
  injection q1 with q1
  subst q1
  obtain ⟨bs, bs', sh, hd, ct, r1, r2, r3, r4, r5, r6, r7, r8, r9, r10, r11, r12, r13, r14⟩ := A'.reader hU hy hj ho
  rw [r1] at q2
  obtain ⟨e1, e2⟩ := postings_found (u := u) hU A'.fits.ids b
  obtain ⟨_, e4⟩ := postings_found (u := u) hU A'.fits.left.ids b
  have hids := A'.fits.ids
  rw [e4, e1] at r12
  rw [e1] at e2
  have hdocs := bucketIds_docs u c _ hids b.toNat
  have hmap := bucketIds_found u c _ hids b.toNat
  rw [getL_bucket (by omega) (by omega) ⟨b, some ⟨v, s⟩⟩ r2 r3 r4 grow m fuel q2]
  have hloop := Query.getLoopL_chase_lim (x := y) (m := m) (j := b.toNat % c.numShards.toNat) (D := metaOf (documents h ++ added cwd new)) grow r5 r6
    (fun t => by obtain ⟨f, f1, f2⟩ := r13 _ (hm t); simpa [Dir.contents, f1] using f2)
    (K := fun id => ∀ s, (documents h ++ added cwd new)[id.toNat - 1]? = some s → KnownPath (documents h) s.path) b fuel 0 v s r12 (fun id hid t => by
      obtain ⟨m1, m2⟩ := idsWith_mem _ (documents h ++ added cwd new) 1 (by omega) id hid
      obtain ⟨s, s1, s2, _⟩ := A.anyDoc hU hy id (by omega) (by omega)
      rcases s2 _ (hm t) with ⟨g1, g2⟩ | g | ⟨g1, g2⟩
      · refine .inl ⟨g1, fun s' hs' => ?_⟩
        rw [s1] at hs'
        injection hs' with hs'
        rw [← hs']; exact g2
      · exact .inr (.inl g)
      · exact .inr (.inr ⟨g1, fun hK => g2 (hK s s1)⟩)) (by omega)
  rcases hloop with ⟨k, k1, k2, k3, k4, k5⟩ | he | ⟨hp, id, i1, i2⟩
  · refine .inl ⟨k, ?_, k2, k4⟩
    rw [Option.isSome_some, k1, ← found_append]
    rw [fill_found s _ ((found u c (documents h ++ added cwd new) b.toNat).take k)]
    rw [List.map_take, hmap, List.map_take]
  · exact .inr (.inl he)
  · refine .inr (.inr ⟨hp, ?_⟩)
    have := List.mem_map_of_mem (f := fun id : UInt32 => (documents h ++ added cwd new)[id.toNat - 1]?) i1
    rw [hdocs] at this
    obtain ⟨s, s1, s2⟩ := List.mem_map.mp this
    have hns : ¬ KnownPath (documents h) s.path := by
      intro hk
      apply i2
      intro s' hs'
      rw [← s2] at hs'
      injection hs' with hs'
      rw [← hs']; exact hk
    rw [found_append] at s1
    rcases List.mem_append.mp s1 with s1 | s1
    · exact absurd ⟨s, (List.mem_filter.mp s1).1, .inl rfl⟩ hns
    · exact ⟨s, s1, hns⟩

include hU A in
/-- **C54**, the moments considered include the end of the session -/
theorem C54_end : Trace.Seen c.numShards.toNat tr d d' ∧ Trace.Seen c.numShards.toNat tr d d := by
  obtain ⟨ops, hi⟩ := Interleave.exists _ (Trace.workers c.numShards.toNat tr.adds tr.serve) rfl
  obtain ⟨ops', hi'⟩ := Interleave.exists _ ((List.range c.numShards.toNat).map tr.shard) rfl
  have := (C31_finished hU A (.finished hi hi')).1
  refine ⟨?_, .setup List.nil_prefix⟩
  rw [← this]
  exact .shards hi (fun _ _ => List.prefix_refl _) hi'

include hU A hsrt hy hq in
/-- **C54 is false of the code**, third reason: the link to a new block is written before the block
(poster.go:152-184).  For every blot that some old document has and between one and 102 of the new documents have,
there is a moment of the session at which `Get` of the blot returns an error. -/
theorem C54_false_link {b : UInt32} (hold : found u c (documents h) b.toNat ≠ []) (hnew : found u c (added cwd new) b.toNat ≠ [])
    (hle : (found u c (added cwd new) b.toNat).length ≤ 102) :
    ∃ cd, Trace.Seen c.numShards.toNat tr d cd ∧
      ∀ grow fuel, (found u c (documents h) b.toNat).length < fuel → Query.getL grow y (fun _ => cd) fuel q ⟨b, none⟩ = fail (.wrap "1" .eof) := by
  have A' := A.appending hU
  have hn := hU.shards
  have hn' := hU.shardsSmall
  have hj : b.toNat % c.numShards.toNat < c.numShards.toNat := Nat.mod_lt _ (by omega)
  have ho : b.toNat / c.numShards.toNat % 65536 < 65536 := Nat.mod_lt _ (by decide)
  obtain ⟨e1, e2⟩ := postings_found (u := u) hU A'.fits.left.ids b
  have hfew := few (u := u) hU A'.fits.ids b
  have hpos := List.length_pos_iff.mpr hnew
  have hpos' := List.length_pos_iff.mpr hold
  obtain ⟨bs, ps, ws1, ws3, w, rest, B, h2, h3, h4, h5, h6, h7, h8, h9, h10, h11⟩ := A'.patch hU hj ho
    (by intro e; rw [e] at e2; simp at e2; omega) (by omega) (by omega)
  obtain ⟨ops, hi⟩ := Interleave.exists _ (Trace.workers c.numShards.toNat tr.adds tr.serve) rfl
  let s : Nat → List Op := fun j => if j = b.toNat % c.numShards.toNat then ShardIndexer.posOps j (ws1 ++ [w]) else []
  have hsj : s (b.toNat % c.numShards.toNat) = ShardIndexer.posOps (b.toNat % c.numShards.toNat) (ws1 ++ [w]) := by simp [s]
  have hs : ∀ j, j < c.numShards.toNat → s j <+: tr.shard j := by
    intro j _
    by_cases e : j = b.toNat % c.numShards.toNat
    · rw [e, hsj, h5, List.append_assoc]; exact List.prefix_append _ _
    · simp only [s, if_neg e]; exact List.nil_prefix
  have hs' : ∀ j, j < c.numShards.toNat → Cut (tr.shard j) (s j) := fun j hj => Cut.of_prefix (hs j hj)
  obtain ⟨ops', hi'⟩ := Interleave.exists _ ((List.range c.numShards.toNat).map s) rfl
  obtain ⟨F, fn, fd, _⟩ := A'.shards_found hU hi hs' hi'
  obtain ⟨_, fc⟩ := A'.closing_found hU hi (Cut.refl _)
  have hon : ∀ j, On (.pos j) (s j) := by
    intro j
    simp only [s]
    split
    · exact posOps_on _ _
    · intro op hop; simp at hop
  obtain ⟨p1, _⟩ := shards_opsOn hi' fun j _ op hop => .inl (hon j op hop)
  have hpos : d.run (ops ++ tr.closing ++ ops') (.pos (b.toNat % c.numShards.toNat)) = some (patched (b.toNat / c.numShards.toNat % 65536) 0 B) := by
    rw [run_append, run_file, (p1 _ hj).1, (hon _).opsOn, (fc _ hj).2, hsj, h6]
  obtain ⟨q', q1, q2⟩ := startQuery_opened hsrt hy
  rw [hq] at q1
  injection q1 with q1
  subst q1
  obtain ⟨sh, ct, r1, r2, r3, r4, r5⟩ := A.head hU hy b h2 h3 h4
  rw [r1] at q2
  refine ⟨_, .shards hi hs hi', fun grow fuel hfuel => ?_⟩
  rw [show tr.setup = [] from A'.run.rep.setup, List.nil_append, C54_constant]
  have hD := Dangle.new h9 h10 h11
  rw [h7, h8, ← r5] at hD
  rw [e1] at e2
  have hids := A'.fits.left.ids
  refine get_dangle (by omega) (by omega) b (y := Index.over y (d.run (ops ++ tr.closing ++ ops'))) (s := { sh with file := patched (b.toNat / c.numShards.toNat % 65536) 0 B })
    (by simp only [Index.over, List.getElem?_mapIdx, r2, Dir.contents, hpos, Option.map_some, Option.getD_some]) r3 r4 hD (D := metaOf (documents h)) (fun id hid => ?_) grow (by omega) q2
  obtain ⟨m1, m2⟩ := idsWith_mem _ (documents h) 1 (by omega) id hid
  exact A.oldDoc hU hy F (by omega) (by omega)

end

/-! ### Such sessions exist -/

/-- an index with one document, "a b c." at /p -/
def exLHistory : Sessions := [([47], [⟨[112], 0, 6, some [97, 32, 98, 32, 99, 46]⟩])]

/-- the same text again: at the same path, and at a new one -/
def exLNew (p : Bytes) : List Doc := [⟨p, 7, 13, some [97, 32, 98, 32, 99, 46]⟩]

theorem exL_fits {p : Bytes} (hp : p = [112] ∨ p = [113]) : Fits asciiUni exQConfig (documents exLHistory ++ added [47] (exLNew p)) := by
  rcases hp with rfl | rfl <;> exact ⟨by decide +kernel, by decide +kernel, by decide +kernel⟩

/-- **C54**: an index is opened for reading; another document with the same text is added, once at the same path and
once at a new one.  The reader finds both documents in the one case, and panics in the other. -/
theorem C54_nonvacuous : ∃ (d : Dir) (y : Index) (q : QState) (x1 x2 : Indexer) (tr1 tr2 : Trace) (d1 d2 : Dir) (b : UInt32) (r : Blot),
    Adding asciiUni ⟨fun _ => [], fun _ => .ok exQConfig⟩ exQConfig exLHistory d x1 [47] (exLNew [112]) tr1 d1 ∧
    Adding asciiUni ⟨fun _ => [], fun _ => .ok exQConfig⟩ exQConfig exLHistory d x2 [47] (exLNew [113]) tr2 d2 ∧
    Index.open ⟨fun _ => [], fun _ => .ok exQConfig⟩ mergeSorter d = .ok y ∧ y.startQuery = .ok q ∧
    Query.getL (fun _ => 0) y (fun _ => d1) 9 q ⟨b, none⟩ = .ok r ∧ r.vis = [⟨[47, 112], 0, 6, none⟩, ⟨[47, 112], 7, 13, none⟩] ∧
    Query.getL (fun _ => 0) y (fun _ => d2) 9 q ⟨b, none⟩ = panic' := by
  have f0 : Fits asciiUni exQConfig (documents exLHistory) := (exL_fits (.inl rfl)).left
  obtain ⟨d, hd⟩ := History.exists (u := asciiUni) exUsable [47] [⟨[112], 0, 6, some [97, 32, 98, 32, 99, 46]⟩] [] f0
  obtain ⟨y, q, hy, hr⟩ := reading_exists exUsable mergeSorter_isSorter hd f0
  have hq := hr.start
  obtain ⟨x1, tr1, d1, a1⟩ := C31_nonvacuous exUsable (h := exLHistory) hd [47] (exLNew [112]) (exL_fits (.inl rfl))
  obtain ⟨x2, tr2, d2, a2⟩ := C31_nonvacuous exUsable (h := exLHistory) hd [47] (exLNew [113]) (exL_fits (.inr rfl))
  obtain ⟨b, hb⟩ : ∃ b, b = fnv32 [99] ^^^ fnv32 [98] := ⟨_, rfl⟩
  have e0 : found asciiUni exQConfig (documents exLHistory) b.toNat = documents exLHistory := by rw [hb]; decide +kernel
  have e1 : found asciiUni exQConfig (added [47] (exLNew [112])) b.toNat = added [47] (exLNew [112]) := by rw [hb]; decide +kernel
  have e2 : found asciiUni exQConfig (added [47] (exLNew [113])) b.toNat = added [47] (exLNew [113]) := by rw [hb]; decide +kernel
  have hne : found asciiUni exQConfig (documents exLHistory) b.toNat ≠ [] := by rw [e0]; decide +kernel
  obtain ⟨r, r1, _, r3⟩ := C54_false_new exUsable mergeSorter_isSorter a1 hy hq (b := b) hne (by
    rw [e1]
    intro s hs
    exact ⟨⟨[47, 112], 0, 6, [97, 32, 98, 32, 99, 46]⟩, by decide +kernel, .inl (by revert s; decide +kernel)⟩) (fun _ => 0) 9 (by rw [e0, e1]; decide +kernel)
  refine ⟨d, y, q, x1, x2, tr1, tr2, d1, d2, b, r, a1, a2, hy, hq, r1, by rw [r3, e0, e1]; decide +kernel, ?_⟩
  refine C54_false_panic exUsable mergeSorter_isSorter a2 hy hq (b := b) hne (s := ⟨[47, 113], 7, 13, [97, 32, 98, 32, 99, 46]⟩) (by rw [e2]; decide +kernel) ?_ _
    (by rw [found_append, e0, e2]; decide +kernel)
  rintro ⟨s, hs, h⟩
  have : s = ⟨[47, 112], 0, 6, [97, 32, 98, 32, 99, 46]⟩ := by revert s; decide +kernel
  subst this
  revert h
  decide +kernel

end Dupi.Props
