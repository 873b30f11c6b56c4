import Verif.Proof.Local
import Verif.Props.LocalMeta
import Verif.Props.AnyAppend
import Verif.Proof.AnySession
import Verif.Spec.AnySession
import Verif.Props.AnyGet
import Verif.Props.CutAppend
/-! # C117: what a session leaves of any directory that it opened -/

namespace Dupi.Props
open Spec

theorem encode_len (f : Fields) : (Dmd.encode f).length = 12 := by simp [Dmd.encode, be32_length]

theorem encodes_len (fs : List Fields) : (fs.flatMap Dmd.encode).length = 12 * fs.length := by
  induction fs with
  | nil => rfl
  | cons f fs ih => rw [List.flatMap_cons, List.length_append, encode_len, ih, List.length_cons]; omega

theorem start_bytes (D : Bytes) : D ++ (startRecords D).flatMap Dmd.encode = withFirst D := by
  unfold startRecords withFirst
  by_cases h : D.length < 12
  · rw [if_pos h, if_pos h]
    congr 1
  · rw [if_neg h, if_neg h]; simp

theorem start_next (D : Bytes) : D.length / 12 + (startRecords D).length = numberNext D := by
  unfold numberNext
  rw [← start_bytes, List.length_append, encodes_len]
  omega

/-- a record, as it is read -/
theorem record_as (f : Fields) (rest : Bytes) {t : Fnames.Table} {cwd : Bytes} {doc : Doc} (h : RecordOf t cwd doc f) :
    DocAs (Dmd.encode f ++ rest) (t.map Fnames.says) 0 (placeName (place cwd doc.path)) doc.start.toNat doc.stop.toNat := by
  have h4 : ∀ x : UInt32, ∃ a b c d, be32 x = [a, b, c, d] ∧ four [a, b, c, d] = x.toNat := by
    intro x
    refine ⟨_, _, _, _, rfl, ?_⟩
    have := getBE32_be32 x []
    rw [show be32 x ++ [] = be32 x by simp] at this
    unfold be32 at this
    rw [getBE32_four] at this
    injection this with this
    have h2 := congrArg UInt32.toNat this
    rw [UInt32.toNat_ofNat', Nat.mod_eq_of_lt (four_lt _)] at h2
    exact h2
  obtain ⟨a1, b1, c1, d1, e1, g1⟩ := h4 f.fid
  obtain ⟨a2, b2, c2, d2, e2, g2⟩ := h4 f.start
  obtain ⟨a3, b3, c3, d3, e3, g3⟩ := h4 f.stop
  have e : Dmd.encode f ++ rest = a1 :: b1 :: c1 :: d1 :: a2 :: b2 :: c2 :: d2 :: a3 :: b3 :: c3 :: d3 :: rest := by
    simp [Dmd.encode, e1, e2, e3]
  rw [e]
  obtain ⟨r, hr1, hr2⟩ := Fnames.pathParts_abs cwd doc.path
  have hc := h.comps
  rw [hr2] at hc
  refine ⟨f.fid.toNat, splitSlash r, ⟨by simp, ?_⟩, by rw [List.length_map]; exact h.lt, Fnames.leads_comps.mpr hc, ?_, ?_, ?_⟩
  · simp [g1]
  · rw [← absPath_place, hr1, join_split]
  · simp [g2, h.start]
  · simp [g3, h.stop]

theorem docAs_drop (D : Bytes) (ns : List (Bytes × Nat)) (id : Nat) (path : Bytes) (a b : Nat) (h : DocAs (D.drop (12 * id)) ns 0 path a b) : DocAs D ns id path a b := by
  obtain ⟨p, cs, ⟨h1, h2⟩, h3, h4, h5, h6, h7⟩ := h
  rw [List.length_drop] at h1
  refine ⟨p, cs, ⟨by omega, ?_⟩, h3, h4, h5, ?_, ?_⟩
  · simpa using h2
  · simpa [Nat.add_comm] using h6
  · simpa [Nat.add_comm] using h7

theorem docAs_append (D E : Bytes) {ns ns' : List (Bytes × Nat)} (hns : ns <+: ns') {id : Nat} {path : Bytes} {a b : Nat} (h : DocAs D ns id path a b) :
    DocAs (D ++ E) ns' id path a b := by
  obtain ⟨p, cs, ⟨h1, h2⟩, h3, h4, h5, h6, h7⟩ := h
  have hd : ∀ k, k ≤ 8 → ((D ++ E).drop (12 * id + k)).take 4 = (D.drop (12 * id + k)).take 4 := by
    intro k hk
    rw [List.drop_append_of_le_length (by omega), List.take_append_of_le_length (by rw [List.length_drop]; omega)]
  refine ⟨p, cs, ⟨by rw [List.length_append]; omega, ?_⟩, Nat.lt_of_lt_of_le h3 hns.length_le, Leads.mono hns h4, h5, ?_, ?_⟩
  · have := hd 0 (by omega)
    rw [Nat.add_zero] at this
    rw [this]; exact h2
  · rw [hd 4 (by omega)]; exact h6
  · rw [hd 8 (by omega)]; exact h7

theorem Fnames_path_sum (cwd : Bytes) (new : List Doc) : ((added cwd new).map fun s => s.path.length).sum = (new.map fun d => (absPath cwd d.path).length).sum := by
  simp only [added, List.map_map]
  congr 1
  apply List.map_congr_left
  intro d _
  simp [absPath_place]

/-- **C117**: a session on a directory that could be opened, whatever is in its files, comes to an end, if there is room and the path table has a node, or no document is added;
with no node in the table, the first document makes it panic. -/
theorem C117_runs {u : Uni} {d : Dir} {x : Indexer} {cwd : Bytes} {new : List Doc} {f : Bytes} {ns : List (Bytes × Nat)} (hx : Indexer.open Json.codec d = .ok x)
    (hU : Usable Json.codec x.config) (hf : d .fnm = some f) (hns : TableFile f ns) (hr : RoomFor ((d .dmd).getD []) ns cwd new) :
    ((∃ d', Indexer.Session u Json.codec cwd x new d d') ↔ ns ≠ [] ∨ new = []) ∧ (ns = [] → new ≠ [] → x.front.adds cwd new = .error .panic) := by
  obtain ⟨ns', hb, s1, _⟩ := C116_state hx
  obtain ⟨f', f1, f2⟩ := hb.2.2.2.1
  rw [hf] at f1; injection f1 with f1; subst f1
  have e : ns' = ns := by
    obtain ⟨t, t1, t2⟩ := Fnames.read_of_table f2
    obtain ⟨t', t1', t2'⟩ := Fnames.read_of_table hns
    rw [t1] at t1'; injection t1' with t1'; subst t1'
    rw [← t2, ← t2']
  subst e
  have hz : x.front.fnames = [] ↔ ns' = [] := by rw [← s1]; simp
  have hl : x.front.fnames.length = ns'.length := by rw [← s1, List.length_map]
  have key := fun d' => session_any (u := u) (d' := d') (cwd := cwd) (new := new) hx hU (by rw [start_next]; exact hr.ids) (by rw [hl, ← Fnames_path_sum]; exact hr.paths)
  refine ⟨⟨?_, ?_⟩, fun h1 h2 => Front.adds_empty cwd (hz.mpr h1) h2⟩
  · rintro ⟨d', hs⟩
    have := ((key d').2 hs).1
    rwa [ne_eq, hz] at this
  · intro h
    exact (key d).1 (by rwa [ne_eq, hz])

/-- **C117**: what the session leaves of records and paths.  The bytes of the records are those there were (with a record of zeros after them if there was not one), and twelve for
each new document; the new table goes on from the old one.  So what was known of a document before is known afterwards; and the record at the place of each new document says what
it should.  If the old records were whole that place is the one where the document is looked for. -/
theorem C117_records {u : Uni} {d d' : Dir} {x : Indexer} {cwd : Bytes} {new : List Doc} {f : Bytes} {ns : List (Bytes × Nat)} (hx : Indexer.open Json.codec d = .ok x)
    (hU : Usable Json.codec x.config) (hf : d .fnm = some f) (hns : TableFile f ns) (hr : RoomFor ((d .dmd).getD []) ns cwd new)
    (hs : Indexer.Session u Json.codec cwd x new d d') :
    let D := (d .dmd).getD []
    ∃ R f' ns', d' .dmd = some (withFirst D ++ R) ∧ R.length = 12 * new.length ∧ d' .fnm = some f' ∧ TableFile f' ns' ∧ ns <+: ns' ∧
      (∀ id path a b, DocAs D ns id path a b → DocAs (withFirst D ++ R) ns' id path a b) ∧
      (∀ (i : Nat) (doc : Doc), new[i]? = some doc → DocAs (R.drop (12 * i)) ns' 0 (placeName (place cwd doc.path)) doc.start.toNat doc.stop.toNat) ∧
      (D.length % 12 = 0 → ∀ (i : Nat) (doc : Doc), new[i]? = some doc →
        DocAs (withFirst D ++ R) ns' (numberNext D + i) (placeName (place cwd doc.path)) doc.start.toNat doc.stop.toNat) := by
  intro D
  obtain ⟨ns0, hb, s1, _⟩ := C116_state hx
  obtain ⟨f', f1, f2⟩ := hb.2.2.2.1
  rw [hf] at f1; injection f1 with f1; subst f1
  have e : ns0 = ns := by
    obtain ⟨t, t1, t2⟩ := Fnames.read_of_table f2
    obtain ⟨t', t1', t2'⟩ := Fnames.read_of_table hns
    rw [t1] at t1'; injection t1' with t1'; subst t1'
    rw [← t2, ← t2']
  subst e
  have hl : x.front.fnames.length = ns0.length := by rw [← s1, List.length_map]
  obtain ⟨_, _, ⟨gs, t, g1, g2, g3, g4, g5, g6, g7⟩, _⟩ := (session_any (u := u) (d' := d') (cwd := cwd) (new := new) hx hU (by rw [start_next]; exact hr.ids)
    (by rw [hl, ← Fnames_path_sum]; exact hr.paths)).2 hs
  rw [List.flatMap_append, ← List.append_assoc, start_bytes] at g7
  rw [s1] at g3
  have hR : ∀ (i : Nat) (doc : Doc), new[i]? = some doc →
      DocAs ((gs.flatMap Dmd.encode).drop (12 * i)) (t.map Fnames.says) 0 (placeName (place cwd doc.path)) doc.start.toNat doc.stop.toNat := by
    intro i doc hi
    have hlt : i < gs.length := by rw [g1]; exact (List.getElem?_eq_some_iff.mp hi).1
    have hd : (gs.flatMap Dmd.encode).drop (12 * i) = Dmd.encode gs[i] ++ (gs.drop (i + 1)).flatMap Dmd.encode := by
      conv => lhs; rw [← List.take_append_drop i gs, List.flatMap_append]
      rw [show 12 * i = ((gs.take i).flatMap Dmd.encode).length by rw [encodes_len, List.length_take, Nat.min_eq_left (by omega)], List.drop_left,
        List.drop_eq_getElem_cons hlt, List.flatMap_cons]
    rw [hd]
    exact record_as _ _ (g5 i doc _ hi (List.getElem?_eq_getElem hlt))
  refine ⟨gs.flatMap Dmd.encode, Fnames.write t, t.map Fnames.says, g7, by rw [encodes_len, g1], g6, Fnames.write_tableFile g2 g4, g3, ?_, hR, ?_⟩
  · intro id path a b h
    have : ∃ E, withFirst D = D ++ E := by
      unfold withFirst; split
      · exact ⟨_, rfl⟩
      · exact ⟨[], by simp⟩
    obtain ⟨E, hE⟩ := this
    rw [hE, List.append_assoc]
    exact docAs_append D _ g3 h
  · intro h12 i doc hi
    apply docAs_drop
    have hw : (withFirst D).length = 12 * numberNext D := by
      unfold numberNext
      have : (withFirst D).length % 12 = 0 := by
        unfold withFirst; split
        · rw [List.length_append, List.length_replicate]; omega
        · exact h12
      omega
    rw [Nat.mul_add, ← hw, List.drop_append]
    rw [List.drop_of_length_le (by omega), List.nil_append, Nat.add_sub_cancel_left]
    exact hR i doc hi

theorem mem_shardPosts_grows (u : Uni) (c : Config) (j k : Nat) (docs : List Document) : ∀ n, (∃ q ∈ shardPosts u c j n docs, q.2 = k) ↔ GetsOne u c docs j k := by
  induction docs with
  | nil => intro n; simp [shardPosts, GetsOne]
  | cons s docs ih =>
    intro n
    have hd : (∃ q ∈ docPosts c.numShards.toNat j n (blotsOf u c s.dat), q.2 = k) ↔ ∃ b ∈ blotsOf u c s.dat, b.toNat % c.numShards.toNat = j ∧ b.toNat / c.numShards.toNat % 65536 = k := by
      simp only [docPosts, List.mem_map, List.mem_filter, decide_eq_true_eq]
      constructor
      · rintro ⟨q, ⟨b, ⟨b1, b2⟩, rfl⟩, h⟩; exact ⟨b, b1, b2, h⟩
      · rintro ⟨b, b1, b2, h⟩; exact ⟨_, ⟨b, ⟨b1, b2⟩, rfl⟩, h⟩
    constructor
    · rintro ⟨q, hq, h⟩
      rcases List.mem_append.mp hq with hq | hq
      · obtain ⟨b, h⟩ := hd.mp ⟨q, hq, h⟩
        exact ⟨s, by simp, b, h⟩
      · obtain ⟨s', h1, h2⟩ := (ih (n + 1)).mp ⟨q, hq, h⟩
        exact ⟨s', by simp [h1], h2⟩
    · rintro ⟨s', h1, h2⟩
      rcases List.mem_cons.mp h1 with rfl | h1
      · obtain ⟨q, q1, q2⟩ := hd.mpr h2
        exact ⟨q, List.mem_append_left _ q1, q2⟩
      · obtain ⟨q, q1, q2⟩ := (ih (n + 1)).mpr ⟨s', h1, h2⟩
        exact ⟨q, List.mem_append_right _ q1, q2⟩

/-- the entries of the file of heads, as they are read -/
theorem entries_written (ps : List Poster) (h : ∀ p ∈ ps, -(2 ^ 63) ≤ p.head ∧ p.head < 2 ^ 63) :
    Entries (ps.flatMap ShardIndexer.iixEntry) (ps.map fun p => (p.head, p.total.toNat)) := by
  induction ps with
  | nil => trivial
  | cons p ps ih =>
    have num : ∀ v : Int, -(2 ^ 63) ≤ v → v < 2 ^ 63 → ∃ k, Num (putVarint v) k ∧ v = signed k := by
      intro v h1 h2
      obtain ⟨l, k, e, k1, k2⟩ := (readVarint_exact (putVarint v) v []).mp (by simpa using readVarint_put v [] h1 h2)
      rw [List.append_nil] at e
      exact ⟨k, by rw [e]; exact k1, k2⟩
    obtain ⟨h1, h2⟩ := h p (by simp)
    have h3 := p.total.toNat_lt
    obtain ⟨k, k1, k2⟩ := num p.head h1 h2
    obtain ⟨m, m1, m2⟩ := num (p.total.toNat : Int) (by omega) (by omega)
    refine ⟨ShardIndexer.iixEntry p, ps.flatMap ShardIndexer.iixEntry, rfl, ⟨putVarint p.head, putVarint p.total.toNat, be32 p.current, k, m, rfl, k1, k2, m1, m2.symm, h3, be32_length _⟩, ?_⟩
    exact ih fun q hq => h q (by simp [hq])

theorem signed_range {k : Nat} (h : k < 2 ^ 64) : -(2 ^ 63) ≤ signed k ∧ signed k < 2 ^ 63 := by
  unfold signed; split <;> omega

theorem AppendEntries.range : ∀ {f : Bytes} {es : List ListEntry}, AppendEntries f es → ∀ e ∈ es, -(2 ^ 63) ≤ e.head ∧ e.head < 2 ^ 63 := by
  intro f es
  induction es generalizing f with
  | nil => intro _ e he; cases he
  | cons a es ih =>
    rintro ⟨b, r, _, ⟨l, m, t, k, v, _, hk, hh, _⟩, hr⟩ e he
    rcases List.mem_cons.mp he with rfl | he
    · obtain ⟨_, _, _, _, _, _, _, h64⟩ := hk
      rw [hh]; exact signed_range h64
    · exact ih hr e he

/-- **C117**: what the session leaves of a shard.  The posting file only grows; of the bytes that were there, only the last links of lists that get a document may change.  If the
posting file is of less than 2^63 bytes, the file of heads is as a reader wants it; a list that was there begins where it began, and of a list that gets no document the entry is the
same. -/
theorem C117_shards {u : Uni} {d d' : Dir} {x : Indexer} {cwd : Bytes} {new : List Doc} {f : Bytes} {ns : List (Bytes × Nat)} (hx : Indexer.open Json.codec d = .ok x)
    (hU : Usable Json.codec x.config) (hf : d .fnm = some f) (hns : TableFile f ns) (hr : RoomFor ((d .dmd).getD []) ns cwd new)
    (hs : Indexer.Session u Json.codec cwd x new d d') (j : Nat) (hj : j < x.config.numShards.toNat) :
    ∃ post es post', AppendShard d j post es ∧ d' (.pos j) = some post' ∧ post.length ≤ post'.length ∧
      (∀ i, i < post.length → (∀ (k : Nat) (e : ListEntry) (l : Int), es[k]? = some e → GetsOne u x.config (added cwd new) j k → LastLink post e.head l → l = -1 ∨ ¬ (l ≤ i ∧ i < l + 8)) →
        post'[i]? = post[i]?) ∧
      (post'.length < 2 ^ 63 → ∃ iix' es', d' (.iix j) = some iix' ∧ Entries iix' es' ∧ es'.length = 65536 ∧
        ∀ (k : Nat) (e : ListEntry), es[k]? = some e → ∃ h' c', es'[k]? = some (h', c') ∧ (e.head ≠ -1 → h' = e.head) ∧
          (¬ GetsOne u x.config (added cwd new) j k → h' = e.head ∧ c' = e.count)) := by
  obtain ⟨ns0, hb, s1, _, _, _, s5, s6⟩ := C116_state hx
  obtain ⟨f', f1, f2⟩ := hb.2.2.2.1
  rw [hf] at f1; injection f1 with f1; subst f1
  have e : ns0 = ns := by
    obtain ⟨t, t1, t2⟩ := Fnames.read_of_table f2
    obtain ⟨t', t1', t2'⟩ := Fnames.read_of_table hns
    rw [t1] at t1'; injection t1' with t1'; subst t1'
    rw [← t2, ← t2']
  subst e
  have hl : x.front.fnames.length = ns0.length := by rw [← s1, List.length_map]
  obtain ⟨_, _, _, hsh⟩ := (session_any (u := u) (d' := d') (cwd := cwd) (new := new) hx hU (by rw [start_next]; exact hr.ids)
    (by rw [hl, ← Fnames_path_sum]; exact hr.paths)).2 hs
  obtain ⟨s, y, z, k1, _, _, k4, k5, k6, k7⟩ := hsh j hj
  obtain ⟨es, a1, a2, a3⟩ := s6 j s k1
  have hes : es.length = 65536 := by obtain ⟨_, _, _, _, h⟩ := a1; exact h
  -- the list with the entry `es[k]`
  have hlist : ∀ (k : Nat) (p : Poster), s.ind[k]? = some p → ∃ e, es[k]? = some e ∧ p.head = e.head ∧ LastLink s.file e.head p.link ∧ p.total.toNat = e.count := by
    intro k p hp
    have hlt : k < es.length := by rw [hes, ← a2]; exact (List.getElem?_eq_some_iff.mp hp).1
    obtain ⟨p', q1, q2, q3, q4, _⟩ := a3 k _ (List.getElem?_eq_getElem hlt)
    rw [hp] at q1; injection q1 with q1; subst q1
    exact ⟨_, List.getElem?_eq_getElem hlt, q2, q3, q4⟩
  refine ⟨s.file, es, z.file, a1, k4, k7.len, ?_, ?_⟩
  · intro i hi hn
    refine k7.bytes i hi fun k p hk hp => ?_
    obtain ⟨e, e1, _, e3, _⟩ := hlist k p hp
    exact hn k e _ e1 ((mem_shardPosts_grows u x.config j k _ _).mp hk) e3
  · intro hsz
    have hrange : ∀ p ∈ z.ind, -(2 ^ 63) ≤ p.head ∧ p.head < 2 ^ 63 := by
      intro p hp
      obtain ⟨k, hk⟩ := List.mem_iff_getElem?.mp hp
      have hlt : k < s.ind.length := by rw [← k7.ind]; exact (List.getElem?_eq_some_iff.mp hk).1
      obtain ⟨e, e1, e2, _⟩ := hlist k _ (List.getElem?_eq_getElem hlt)
      rcases (k7.head k _ p (List.getElem?_eq_getElem hlt) hk).1 with h | h
      · rw [h, e2]
        obtain ⟨_, _, _, h3, _⟩ := a1
        exact AppendEntries.range h3 e (List.mem_of_getElem? e1)
      · omega
    refine ⟨_, z.ind.map fun p => (p.head, p.total.toNat), k5, entries_written _ hrange, by rw [List.length_map]; exact k6.len, fun k e he => ?_⟩
    obtain ⟨p, q1, q2, q3, q4, _⟩ := a3 k e he
    have hlt : k < z.ind.length := by rw [k6.len, ← hes]; exact (List.getElem?_eq_some_iff.mp he).1
    have hz := List.getElem?_eq_getElem hlt
    refine ⟨z.ind[k].head, z.ind[k].total.toNat, by rw [List.getElem?_map, hz]; rfl, fun h1 => ?_, fun hg => ?_⟩
    · have := (k7.head k p _ q1 hz).2.2 (by
        rcases q3 with ⟨h, _⟩ | ⟨_, _, _, n, v, _, ⟨⟨r1, _⟩, r2, _, _, _⟩, r5⟩
        · exact absurd h h1
        · omega)
      rw [this.1, q2]
    · have := k7.same k (fun h => hg ((mem_shardPosts_grows u x.config j k _ _).mp h))
      rw [hz, q1] at this
      injection this with this
      rw [this]; exact ⟨q2, q4⟩

/-- **C117**: after the session the directory can be opened to be read, even if it could not before, when the file of the configuration is as the program writes it, and no posting
file has 2^63 bytes or more. -/
theorem C117_opens {u : Uni} (srt : Sorter) {d d' : Dir} {x : Indexer} {cwd : Bytes} {new : List Doc} {f : Bytes} {ns : List (Bytes × Nat)} (hx : Indexer.open Json.codec d = .ok x)
    (hU : Usable Json.codec x.config) (hf : d .fnm = some f) (hns : TableFile f ns) (hr : RoomFor ((d .dmd).getD []) ns cwd new)
    (hs : Indexer.Session u Json.codec cwd x new d d') (hc : d .cfg = some (Json.codec.enc x.config ++ [10]))
    (hp : ∀ j post, j < x.config.numShards.toNat → d' (.pos j) = some post → post.length < 2 ^ 63) :
    ∃ y, Index.open Json.codec srt d' = .ok y ∧ y.config = x.config := by
  obtain ⟨R, f', ns', r1, _, r3, r4, _⟩ := C117_records hx hU hf hns hr hs
  obtain ⟨ns0, hb, s1, _⟩ := C116_state hx
  obtain ⟨f'', f1, f2⟩ := hb.2.2.2.1
  rw [hf] at f1; injection f1 with f1; subst f1
  have e : ns0 = ns := by
    obtain ⟨t, t1, t2⟩ := Fnames.read_of_table f2
    obtain ⟨t', t1', t2'⟩ := Fnames.read_of_table hns
    rw [t1] at t1'; injection t1' with t1'; subst t1'
    rw [← t2, ← t2']
  subst e
  have hl : x.front.fnames.length = ns0.length := by rw [← s1, List.length_map]
  obtain ⟨_, hcfg, _⟩ := (session_any (u := u) (d' := d') (cwd := cwd) (new := new) hx hU (by rw [start_next]; exact hr.ids)
    (by rw [hl, ← Fnames_path_sum]; exact hr.paths)).2 hs
  rw [hc, Option.getD_some] at hcfg
  have hcfg : d' .cfg = some (Json.codec.enc x.config ++ [10]) := by rw [hcfg]; simp [writeAt]
  have hread : Config.readFrom Json.codec d' = .ok x.config := by
    simp only [Config.readFrom, Dir.read, hcfg, bind, Except.bind, hU.codec, hU.check, pure, Except.pure]
  have hn := hU.shards
  obtain ⟨y, hy⟩ := (C97_open srt d').1.mpr ⟨x.config, _, f', ns', hread, r1, r3, r4, by omega, fun i hi => by
    obtain ⟨post, es, post', _, p2, _, _, p5⟩ := C117_shards hx hU hf hns hr hs i hi
    obtain ⟨iix', es', q1, q2, q3, _⟩ := p5 (hp i post' hi p2)
    exact ⟨iix', post', es', q1, p2, q2, q3⟩⟩
  refine ⟨y, hy, ?_⟩
  obtain ⟨i1, _⟩ := openIndex_inv hy
  rw [hread] at i1
  injection i1 with i1
  exact i1.symm

/-! ## Lists of shards that were not damaged -/

/-- a list that can be read to its end -/
theorem rep_reaches {f : Bytes} {h : Int} {vals : List UInt32} (hp : PostsRep f (Posts.new h) vals) : Reaches f h (vals.map UInt32.toNat) (-1) := by
  have walk : ∀ (is vals : List UInt32) (p p' : Posts), PostsRep f p vals → Turns f p is p' → ∃ rem, vals = is ++ rem ∧ PostsRep f p' rem := by
    intro is
    induction is with
    | nil => intro vals p p' hp ht; cases ht; exact ⟨vals, rfl, hp⟩
    | cons v is ih =>
      intro vals p p' hp ht
      cases ht with
      | cons h1 h2 =>
        cases vals with
        | nil => rw [hp.eof] at h1; cases h1
        | cons w vals =>
          obtain ⟨p1, k1, k2⟩ := hp.step
          rw [h1] at k1
          injection k1 with k1
          injection k1 with k1 k1'
          subst k1 k1'
          obtain ⟨rem, r1, r2⟩ := ih vals _ _ k2 h2
          exact ⟨rem, by rw [r1]; rfl, r2⟩
  rcases list_fates f h with ⟨ids, q, h1, h2⟩ | h1
  · obtain ⟨is, p', t1, t2, t3, t4⟩ := reaches_turns h1
    obtain ⟨rem, r1, r2⟩ := walk is vals _ _ hp t1
    by_cases hq : q = -1
    · have : rem = [] := by
        cases rem with
        | nil => rfl
        | cons v rem =>
          obtain ⟨p1, k1, _⟩ := r2.step
          unfold Posts.next at k1
          rw [if_pos t3, if_pos (by rw [t4, hq])] at k1
          cases k1
      rw [this, List.append_nil] at r1
      subst hq
      rw [r1, t2]; exact h1
    · have hno := h2.resolve_left hq
      have hne : p'.nextpos ≠ -1 := by rw [t4]; exact hq
      have hbad : (∃ v p1, p'.next f = .ok (v, p1)) ∨ p'.next f = fail .eof := by
        cases rem with
        | nil => exact .inr r2.eof
        | cons v rem => obtain ⟨p1, k1, _⟩ := r2.step; exact .inl ⟨v, p1, k1⟩
      have hnx : p'.next f = (p'.readNext f).bind fun p => match p.docids[p.i]? with
          | none => panic'
          | some d => .ok (d, { p with i := p.i + 1 }) := by
        unfold Posts.next
        rw [if_pos t3, if_neg hne]
        rfl
      rw [hnx] at hbad
      by_cases hw : WildAt f p'.nextpos
      · rw [(readNext_exact p' f).2.1 hw] at hbad
        rcases hbad with ⟨_, _, h⟩ | h <;> cases h
      · obtain ⟨e, he, hne⟩ := (readNext_exact p' f).2.2 hw (by rw [t4]; exact hno)
        rw [he] at hbad
        rcases hbad with ⟨_, _, h⟩ | h
        · cases h
        · injection h with h; injection h with h; exact absurd h hne
  · obtain ⟨ids, l1, l2⟩ := h1 (vals.length + 1)
    obtain ⟨is, p', t1, t2⟩ := begins_turns l2
    obtain ⟨rem, r1, _⟩ := walk is vals _ _ hp t1
    have h1 := congrArg List.length r1
    have h2 := congrArg List.length t2
    rw [List.length_append] at h1
    rw [List.length_map] at h2
    omega

theorem idsWith_holders (u : Uni) (c : Config) (b : Nat) (docs : List Document) : ∀ i, i + docs.length ≤ 2 ^ 32 →
    (idsWith (fun s => hasBlot u c s.dat b) i docs).map UInt32.toNat = holders u c b i docs := by
  induction docs with
  | nil => intro i _; rfl
  | cons s docs ih =>
    intro i hi
    rw [List.length_cons] at hi
    have := ih (i + 1) (by omega)
    unfold holders at this ⊢
    rw [List.zipIdx_cons, List.filter_cons, idsWith]
    by_cases h : hasBlot u c s.dat b = true
    · rw [if_pos h, if_pos (by exact h), List.map_cons, List.map_cons, this]
      congr 1
      rw [UInt32.toNat_ofNat']; exact Nat.mod_eq_of_lt (by omega)
    · rw [if_neg h, if_neg (by exact h), this]

/-- **C117**: the lists of a shard whose two files are those that sessions left have afterwards the documents of those sessions, with the numbers they got, and then the new ones;
whatever has become of the other shards, the records and the paths, as long as there are as many records as those sessions made. -/
theorem C117_lists {u : Uni} {c : Config} {h : Sessions} {d0 d d' : Dir} {x : Indexer} {cwd : Bytes} {new : List Doc} {f : Bytes} {ns : List (Bytes × Nat)}
    (hd0 : History u Json.codec c h d0) (hf0 : Fits u c (documents h)) (hx : Indexer.open Json.codec d = .ok x) (hxc : x.config = c)
    (hU : Usable Json.codec c) (hf : d .fnm = some f) (hns : TableFile f ns) (hr : RoomFor ((d .dmd).getD []) ns cwd new)
    (hs : Indexer.Session u Json.codec cwd x new d d') (hm : (documents h).length < numberNext ((d .dmd).getD []))
    (j : Nat) (hj : j < c.numShards.toNat) (h1 : d (.pos j) = d0 (.pos j)) (h2 : d (.iix j) = d0 (.iix j)) (hp : ∀ post, d' (.pos j) = some post → post.length < 2 ^ 63)
    (k : Nat) (hk : k < 65536) :
    ∃ post h', ListAt d' j k post h' ∧ Reaches post h' (holders u c (k * c.numShards.toNat + j) 1 (documents h) ++
      holders u c (k * c.numShards.toNat + j) (numberNext ((d .dmd).getD [])) (added cwd new)) (-1) := by
  subst hxc
  obtain ⟨ns0, hb, s1, _⟩ := C116_state hx
  obtain ⟨f', f1, f2⟩ := hb.2.2.2.1
  rw [hf] at f1; injection f1 with f1; subst f1
  have e : ns0 = ns := by
    obtain ⟨t, t1, t2⟩ := Fnames.read_of_table f2
    obtain ⟨t', t1', t2'⟩ := Fnames.read_of_table hns
    rw [t1] at t1'; injection t1' with t1'; subst t1'
    rw [← t2, ← t2']
  subst e
  have hl : x.front.fnames.length = ns0.length := by rw [← s1, List.length_map]
  obtain ⟨_, _, _, hsh⟩ := (session_any (u := u) (d' := d') (cwd := cwd) (new := new) hx hU (by rw [start_next]; exact hr.ids)
    (by rw [hl, ← Fnames_path_sum]; exact hr.paths)).2 hs
  obtain ⟨s, y, z, k1, k2, k3, k4, k5, k6, _⟩ := hsh j hj
  rw [start_next] at k2
  -- the shard as it was opened
  obtain ⟨bs, ps, b1, b2, b3, b4⟩ := (History.rep hU hd0 hf0).small hf0.posts hj
  have hse : s = ⟨ps, render 0 bs⟩ := by
    obtain ⟨a, t, _, _, ho⟩ := open_begun hb
    rw [hx] at ho
    cases q1 : Indexer.openShards d x.config.numShards.toNat 0 with
    | error e => rw [q1] at ho; cases ho
    | ok xs =>
      cases q2 : Indexer.makeBlotters x.config with
      | error e => rw [q1, q2] at ho; cases ho
      | ok bl =>
        rw [q1, q2] at ho
        simp only [Except.bind, Except.ok.injEq] at ho
        have hxs : x.shards = xs := by rw [ho]
        have := ((appendShards_ok d _ 0 xs).mp q1).2 j s (by rw [← hxs]; exact k1)
        rw [Nat.zero_add] at this
        unfold appendShard at this
        simp only [Dir.read, h1, h2, b1, b2, bind, Except.bind, b3.reopen b4] at this
        injection this with this
        exact this.symm
  generalize hn : numberNext ((d .dmd).getD []) = n at hm k2 ⊢
  have hids := hr.ids
  rw [hn] at hids
  -- old and new posts, as of one collection
  have hall : shardPosts u x.config j 1 (documents h) ++ shardPosts u x.config j n (added cwd new) =
      shardPosts u x.config j 1 (documents h ++ (blanks (n - 1 - (documents h).length) ++ added cwd new)) := by
    rw [shardPosts_append, shardPosts_append, shardPosts_blanks, List.nil_append]
    congr 2
    simp only [blanks, List.length_replicate]; omega
  have hlen : (documents h ++ (blanks (n - 1 - (documents h).length) ++ added cwd new)).length < 2 ^ 32 := by
    simp only [List.length_append, blanks, List.length_replicate, added, List.length_map]; omega
  have hroom : ∀ b, (postings (shardPosts u x.config j 1 (documents h) ++ shardPosts u x.config j n (added cwd new)) b).length < 2 ^ 32 := by
    intro b
    rw [hall]
    by_cases hb : b < 65536
    · rw [postings_shardPosts u x.config j b hj hb _ hlen]
      exact Nat.lt_of_le_of_lt (idsWith_length _ _ 1) hlen
    · have : postings (shardPosts u x.config j 1 (documents h ++ (blanks (n - 1 - (documents h).length) ++ added cwd new))) b = [] := by
        apply List.eq_nil_iff_forall_not_mem.mpr
        intro v hv
        have := shardPosts_bucket u x.config j _ 1 _ ((mem_postings _ _ _).mp hv)
        simp only [] at this
        omega
      rw [this]; exact (by decide)
  obtain ⟨y', e1, e2⟩ := (show ShardRep 65536 s (postings (shardPosts u x.config j 1 (documents h))) by rw [hse]; exact b3.shardRep).addAll
    (shardPosts u x.config j n (added cwd new)) (shardPosts_bucket u x.config j _ _) hroom
  rw [k2] at e1
  injection e1 with e1
  subst e1
  obtain ⟨ps', bs', c1, c2⟩ := e2.close
  rw [k3] at c1
  injection c1 with c1
  injection c1 with c1 c1'
  have hsz : (render 0 bs').length < 2 ^ 63 := by rw [← c1]; exact hp _ k4
  have hlt : k < ps'.length := by rw [c2.len]; exact hk
  have hpk := List.getElem?_eq_getElem hlt
  have hrange : ∀ p ∈ ps', -(2 ^ 63) ≤ p.head ∧ p.head < 2 ^ 63 := by
    intro p hp
    obtain ⟨i, hi⟩ := List.mem_iff_getElem?.mp hp
    have hh := (c2.rep i p hi).1.head
    rcases (by exact Decidable.em (nextOff i 0 bs' = -1)) with h0 | h0
    · rw [hh, h0]; omega
    · obtain ⟨bs1, b, bs2, g1, _, _, g4⟩ := nextOff_seek i bs' 0 h0
      rw [hh, g4]
      have : sizes bs1 ≤ sizes bs' := by rw [g1, sizes_append]; omega
      rw [render_length] at hsz
      omega
  refine ⟨render 0 bs', ps'[k].head, ⟨_, ps'.map fun p => (p.head, p.total.toNat), ps'[k].total.toNat, by rw [k5, c1'], by rw [k4, c1], entries_written _ hrange,
    by rw [List.length_map, c2.len], by rw [List.getElem?_map, hpk]; rfl⟩, ?_⟩
  have hread := c2.read_swap hsz hpk (f' := render 0 bs') (fun _ _ => rfl)
  rw [hall, postings_shardPosts u x.config j k hj hk _ hlen, idsWith_append, idsWith_append, idsWith_blanks, List.nil_append] at hread
  have := rep_reaches hread
  rw [List.map_append, idsWith_holders _ _ _ _ _ (by omega), idsWith_holders _ _ _ _ _ (by
    simp only [blanks, List.length_replicate, added, List.length_map]; omega)] at this
  rw [show 1 + (documents h).length + (blanks (n - 1 - (documents h).length)).length = n by simp only [blanks, List.length_replicate]; omega] at this
  exact this

theorem holders_bucket (u : Uni) (c : Config) (b i : Nat) (docs : List Document) :
    holders u c (b / c.numShards.toNat % 65536 * c.numShards.toNat + b % c.numShards.toNat) i docs = holders u c b i docs := by
  have e : b / c.numShards.toNat % 65536 * c.numShards.toNat + b % c.numShards.toNat = b % (c.numShards.toNat * 65536) := by
    rw [Nat.mod_mul, Nat.add_comm, Nat.mul_comm]
  have hp : ∀ s : Bytes, hasBlot u c s (b / c.numShards.toNat % 65536 * c.numShards.toNat + b % c.numShards.toNat) = hasBlot u c s b := by
    intro s; unfold hasBlot; rw [e]; simp only [Nat.mod_mod]
  unfold holders
  simp only [hp]

theorem table_one {f : Bytes} {ns ns' : List (Bytes × Nat)} (h : TableFile f ns) (h' : TableFile f ns') : ns = ns' := by
  obtain ⟨t, t1, t2⟩ := Fnames.read_of_table h
  obtain ⟨t', t1', t2'⟩ := Fnames.read_of_table h'
  rw [t1] at t1'; injection t1' with t1'; subst t1'
  rw [← t2, ← t2']

/-- **C117**: the answer of Get for a blot whose shard was not damaged: the documents of the sessions before that have it, as the records and the path table now tell of them, and
then the new ones that have it; if the records and the paths of all of them are there. -/
theorem C117_get {u : Uni} {c : Config} {srt : Sorter} (hsrt : IsSorter srt) {h : Sessions} {d0 d d' : Dir} {x : Indexer} {y : Index} {cwd : Bytes} {new : List Doc} {f : Bytes} {ns : List (Bytes × Nat)}
    (hd0 : History u Json.codec c h d0) (hf0 : Fits u c (documents h)) (hx : Indexer.open Json.codec d = .ok x) (hxc : x.config = c)
    (hU : Usable Json.codec c) (hf : d .fnm = some f) (hns : TableFile f ns) (hr : RoomFor ((d .dmd).getD []) ns cwd new)
    (hs : Indexer.Session u Json.codec cwd x new d d') (hm : (documents h).length < numberNext ((d .dmd).getD [])) (hy : Index.open Json.codec srt d' = .ok y) (hyc : y.config = c)
    (b : UInt32) (h1 : d (.pos (b.toNat % c.numShards.toNat)) = d0 (.pos (b.toNat % c.numShards.toNat)))
    (h2 : d (.iix (b.toNat % c.numShards.toNat)) = d0 (.iix (b.toNat % c.numShards.toNat)))
    (hp : ∀ post, d' (.pos (b.toNat % c.numShards.toNat)) = some post → post.length < 2 ^ 63) :
    let ids := holders u c b.toNat 1 (documents h) ++ holders u c b.toNat (numberNext ((d .dmd).getD [])) (added cwd new)
    ∃ q D' f' ns', y.startQuery = .ok q ∧ d' .dmd = some D' ∧ d' .fnm = some f' ∧ TableFile f' ns' ∧
      (Known D' ns' ids → ∀ grow fuel, ids.length < fuel → ∃ r, Query.get grow y fuel q ⟨b, none⟩ = .ok r ∧ r.blot = b ∧
        Each (fun id (doc : Doc) => DocAs D' ns' id doc.path doc.start.toNat doc.stop.toNat) ids r.vis) := by
  intro ids
  have hn := hU.shards
  have hn' := hU.shardsSmall
  have hlt : b.toNat % c.numShards.toNat < c.numShards.toNat := Nat.mod_lt _ (by omega)
  obtain ⟨post, h', l1, l2⟩ := C117_lists hd0 hf0 hx hxc hU hf hns hr hs hm _ hlt h1 h2 hp (b.toNat / c.numShards.toNat % 65536) (Nat.mod_lt _ (by omega))
  rw [holders_bucket, holders_bucket] at l2
  subst hyc
  obtain ⟨q, D', f', ns', g1, g2, g3, g4, g5⟩ := C114_get hsrt hy (by omega) (by omega)
  refine ⟨q, D', f', ns', g1, g2, g3, g4, fun hk grow fuel hfuel => ?_⟩
  obtain ⟨_, k, _⟩ := g5 grow ⟨b, none⟩ post h' l1
  obtain ⟨r, v, r1, r2, r3, r4⟩ := k ids ⟨hk, .inr ⟨nofun, l2⟩⟩ fuel hfuel
  exact ⟨r, r1, r2, by rw [r3]; exact r4⟩

/-! ## Records that were cut -/

/-- what the records of an index say -/
theorem history_docAs {u : Uni} {c : Config} (hU : Usable Json.codec c) {h : Sessions} {d : Dir} (hd : History u Json.codec c h d) (hf : Fits u c (documents h)) :
    ∃ D f ns, d .dmd = some D ∧ d .fnm = some f ∧ TableFile f ns ∧ D.length = 12 * ((documents h).length + 1) ∧
      ∀ (m : Nat) (s : Document), (documents h)[m]? = some s → DocAs D ns (m + 1) s.path s.start.toNat s.stop.toNat := by
  obtain ⟨_, _, D, f, ns, k1, k2, k3, k4⟩ := C97_sessions hU hd hf
  obtain ⟨x, q, hr, ⟨w, t, fs, w1, w2, w3, w4, w5⟩, hop, _, hdoc⟩ := other_meta (srt := mergeSorter) hU mergeSorter_isSorter hd hf
  have hx := hop x.dmd
  rw [set_same w3] at hx
  obtain ⟨D', f', ns', p1, p2, p3, p4⟩ := C97_path hx
  rw [k1] at p1 w3; injection p1 with p1; subst p1; injection w3 with w3
  rw [k2] at p2; injection p2 with p2; subst p2
  rw [← table_one k3 p3] at p4
  have hlen : D.length = 12 * ((documents h).length + 1) := by
    rw [w3, w4, encodes_len, List.length_cons, w5.len]
  have hids := hf.ids
  refine ⟨D, f, ns, k1, k2, k3, hlen, fun m s hs => ?_⟩
  have hm := (List.getElem?_eq_some_iff.mp hs).1
  have he : (UInt32.ofNat (m + 1)).toNat = m + 1 := by rw [UInt32.toNat_ofNat']; omega
  have hR : RecordAt D (m + 1) (four ((D.drop (12 * (m + 1))).take 4)) := ⟨by rw [hlen]; omega, rfl⟩
  obtain ⟨g1, cs, g2⟩ := k4 (m + 1) _ (by omega) hR
  have hDA : DocAs D ns (m + 1) (sep :: joinSlash cs) _ _ := ⟨_, cs, hR, g1, g2, rfl, rfl, rfl⟩
  obtain ⟨i1, i2, ⟨f'', i3, i3'⟩, i4⟩ := openIndex_inv hx
  rw [k2] at i3; injection i3 with i3; subst i3
  have ht := ((Fnames.read_exact f).1 _).mp ⟨_, i3', rfl⟩
  have hxn : x.fnames.map Fnames.says = ns := table_one ht k3
  have hpar : ∀ n ∈ ns, n.2 < ns.length := by obtain ⟨_, _, _, _, _, _, _, h⟩ := k3; exact h
  obtain ⟨r, r1, r2, r3, r4⟩ := doc_as hxn hpar (UInt32.ofNat (m + 1)) (by rw [he, ← w3]; exact hDA)
  rw [hdoc _ (by omega) (by omega)] at r1
  injection r1 with r1
  have hmo : metaOf (documents h) (UInt32.ofNat (m + 1)) = (s.path, s.start, s.stop) := by
    unfold metaOf
    rw [he, Nat.add_sub_cancel, hs]
    rfl
  rw [hmo] at r1
  subst r1
  simp only [] at r2 r3 r4
  rw [r2, r3, r4]
  exact hDA

/-- **C117**: the bytes of records may end inside a record.  If they end after the first four bytes of the record of document `m`, then the first document added afterwards gets this
number, and what is then found under it is the path of the old document, with a number of a path as its beginning and the beginning of the new document as its end. -/
theorem C117_false_cut {u : Uni} {d d' : Dir} {x : Indexer} {cwd : Bytes} {new : List Doc} {doc : Doc} {f : Bytes} {ns : List (Bytes × Nat)} (hx : Indexer.open Json.codec d = .ok x)
    (hU : Usable Json.codec x.config) (hf : d .fnm = some f) (hns : TableFile f ns) (hr : RoomFor ((d .dmd).getD []) ns cwd new)
    (hs : Indexer.Session u Json.codec cwd x new d d') {D : Bytes} (hD : d .dmd = some D) {m p : Nat} {cs : List Bytes} (hm : 1 ≤ m) (hl : D.length = 12 * m + 4)
    (hp : p = four (D.drop (12 * m))) (hpl : p < ns.length) (hc : Leads ns p cs) (h0 : new[0]? = some doc) :
    numberNext D = m ∧ ∃ D' f' ns' w, d' .dmd = some D' ∧ d' .fnm = some f' ∧ TableFile f' ns' ∧ w < ns'.length ∧ (∃ cs', Leads ns' w cs' ∧ placeName (place cwd doc.path) = sep :: joinSlash cs') ∧
      DocAs D' ns' m (sep :: joinSlash cs) w doc.start.toNat := by
  obtain ⟨R, f', ns', r1, r2, r3, r4, r5, _, r7, _⟩ := C117_records hx hU hf hns hr hs
  rw [hD] at r1
  simp only [Option.getD_some] at r1
  have hwf : withFirst D = D := by unfold withFirst; rw [if_neg (by omega)]
  rw [hwf] at r1
  obtain ⟨w, cs', ⟨q1, q2⟩, q3, q4, q5, q6, q7⟩ := r7 0 doc h0
  simp only [Nat.mul_zero, List.drop_zero, Nat.zero_add] at q1 q2 q6 q7
  have hdl : (D.drop (12 * m)).length = 4 := by rw [List.length_drop]; omega
  refine ⟨by unfold numberNext; rw [hwf]; omega, D ++ R, f', ns', w, r1, r3, r4, q3, ⟨cs', q4, q5⟩, p, cs, ⟨by rw [List.length_append]; omega, ?_⟩, Nat.lt_of_lt_of_le hpl r5.length_le,
    Leads.mono r5 hc, rfl, ?_, ?_⟩
  · rw [hp, List.drop_append_of_le_length (by omega), List.take_append_of_le_length (by omega), List.take_of_length_le (by omega)]
  · rw [q2, show 12 * m + 4 = D.length + 0 by omega, List.drop_append]
    simp
  · rw [q6, show 12 * m + 8 = D.length + 4 by omega, List.drop_append, List.drop_of_length_le (l := D) (by omega), List.nil_append,
      show D.length + 4 - D.length = 4 by omega]

/-- so it goes with any index of at least one document -/
theorem C117_false {u : Uni} {c : Config} (hU : Usable Json.codec c) {h : Sessions} {d : Dir} (hd : History u Json.codec c h d) (hf : Fits u c (documents h)) {D : Bytes} (hD : d .dmd = some D)
    {m : Nat} {s : Document} (hm : (documents h)[m]? = some s) {cwd : Bytes} {new : List Doc} {doc : Doc} (h0 : new[0]? = some doc)
    (hr : ∀ f ns, d .fnm = some f → TableFile f ns → RoomFor (D.take (12 * (m + 1) + 4)) ns cwd new) :
    ∃ x, Indexer.open Json.codec (d.set .dmd (D.take (12 * (m + 1) + 4))) = .ok x ∧
      (∃ d', Indexer.Session u Json.codec cwd x new (d.set .dmd (D.take (12 * (m + 1) + 4))) d') ∧
      ∀ d', Indexer.Session u Json.codec cwd x new (d.set .dmd (D.take (12 * (m + 1) + 4))) d' →
        ∃ D' f' ns' w, d' .dmd = some D' ∧ d' .fnm = some f' ∧ TableFile f' ns' ∧ DocAs D' ns' (m + 1) s.path w doc.start.toNat := by
  obtain ⟨D0, f, ns, k1, k2, k3, k4, k5⟩ := history_docAs hU hd hf
  rw [hD] at k1; injection k1 with k1; subst k1
  obtain ⟨p, cs, ⟨p1, p2⟩, p3, p4, p5, _, _⟩ := k5 m s hm
  obtain ⟨x0, hx0, _⟩ := open_rep hU (History.rep hU hd hf) hf
  obtain ⟨c', ns0, b1, b2, b3⟩ := (C116_open d).1.mp ⟨x0, hx0⟩
  have : c' = c := by
    have := b1.1
    rw [dirRep_readFrom hU (History.rep hU hd hf)] at this
    injection this with this
    exact this.symm
  subst this
  have hsame : ∀ g, g ≠ .dmd → (d.set .dmd (D.take (12 * (m + 1) + 4))) g = d g := fun g hne => by simp only [Dir.set, if_neg hne]
  have hdmd : (d.set .dmd (D.take (12 * (m + 1) + 4))) .dmd = some (D.take (12 * (m + 1) + 4)) := by simp only [Dir.set, if_true]
  generalize d.set .dmd (D.take (12 * (m + 1) + 4)) = e at hsame hdmd ⊢
  have hml := (List.getElem?_eq_some_iff.mp hm).1
  have hlen : (D.take (12 * (m + 1) + 4)).length = 12 * (m + 1) + 4 := by rw [List.length_take, k4]; omega
  have hcfg : Config.readFrom Json.codec e = .ok c' := by
    rw [← b1.1]; simp only [Config.readFrom, Dir.read, hsame .cfg (by intro h; cases h)]
  obtain ⟨x, hx⟩ := (C116_open e).1.mpr ⟨c', ns0, ⟨hcfg, b1.2.1, .inl hU.flush, by rw [hsame .fnm (by intro h; cases h)]; exact b1.2.2.2.1, b1.2.2.2.2⟩, fun i hi => by
    obtain ⟨post, es, ⟨iix, a1, a2, a3⟩, a4⟩ := b2 i hi
    exact ⟨post, es, ⟨iix, by rw [hsame _ (by intro h; cases h)]; exact a1, by rw [hsame _ (by intro h; cases h)]; exact a2, a3⟩, a4⟩, b3⟩
  have hxc : x.config = c' := by
    obtain ⟨_, hb, _⟩ := C116_state hx
    have := hb.1
    rw [hcfg] at this
    injection this with this
    exact this.symm
  have hfn : e .fnm = some f := by rw [hsame _ (by intro h; cases h)]; exact k2
  have hroom : RoomFor ((e .dmd).getD []) ns cwd new := by rw [hdmd]; exact hr f ns k2 k3
  refine ⟨x, hx, ((C117_runs (u := u) hx (by rw [hxc]; exact hU) hfn k3 hroom).1.mpr (.inl (by intro h0; rw [h0] at p3; exact absurd p3 (by simp)))), fun d' hs => ?_⟩
  obtain ⟨_, D', f', ns', w, g1, g2, g3, _, _, g4⟩ := C117_false_cut (m := m + 1) (p := p) hx (by rw [hxc]; exact hU) hfn k3 hroom hs hdmd (by omega) hlen
    (by rw [p2, List.drop_take]; congr 2; omega) p3 p4 h0
  exact ⟨D', f', ns', w, g1, g2, g3, by rw [p5]; exact g4⟩

/-- **C117**: an index whose first file of heads could not be read, but opened, is mended by a session, even by one that adds nothing: it opens for reading afterwards. -/
theorem C117_mends {u : Uni} {c : Config} (srt : Sorter) (hU : Usable Json.codec c) {h : Sessions} {d : Dir} (hd : History u Json.codec c h d) (hf : Fits u c (documents h)) :
    ∃ e x d', Errs (Index.open Json.codec srt e) ∧ Indexer.open Json.codec e = .ok x ∧ Indexer.Session u Json.codec [47] x [] e d' ∧
      ((∀ j post, j < c.numShards.toNat → d' (.pos j) = some post → post.length < 2 ^ 63) → ∃ y, Index.open Json.codec srt d' = .ok y ∧ y.config = c) := by
  obtain ⟨⟨x, hx⟩, he⟩ := C116_lax srt hU hd hf
  obtain ⟨D0, f, ns, k1, k2, k3, k4, _⟩ := history_docAs hU hd hf
  have hids := hf.ids
  generalize hse : d.set (.iix 0) (List.flatten (List.replicate 65536 overEntry)) = e at hx he
  have hsame : ∀ g, g ≠ .iix 0 → e g = d g := fun g hne => by rw [← hse]; simp only [Dir.set, if_neg hne]
  have hxc : x.config = c := by
    obtain ⟨_, hb, _⟩ := C116_state hx
    have := hb.1
    rw [show Config.readFrom Json.codec e = Config.readFrom Json.codec d by simp only [Config.readFrom, Dir.read, hsame .cfg (by intro h; cases h)],
      (C97_sessions hU hd hf).1] at this
    injection this with this
    exact this.symm
  have hfn : e .fnm = some f := by rw [hsame _ (by intro h; cases h)]; exact k2
  have hns : ns.length < 2 ^ 32 := by obtain ⟨_, _, _, _, _, h, _⟩ := k3; exact h
  have hroom : RoomFor ((e .dmd).getD []) ns [47] [] := by
    rw [hsame _ (by intro h; cases h), k1]
    refine ⟨?_, by simpa [added] using hns⟩
    simp only [Option.getD_some, numberNext, withFirst]
    rw [if_neg (by omega), k4, List.length_nil]
    omega
  obtain ⟨d', hs⟩ := (C117_runs (u := u) hx (by rw [hxc]; exact hU) hfn k3 hroom).1.mpr (.inr rfl)
  refine ⟨e, x, d', he, hx, hs, fun hp => ?_⟩
  subst hxc
  exact C117_opens srt hx hU hfn k3 hroom hs (by rw [hsame _ (by intro h; cases h)]; exact (History.rep hU hd hf).cfg) hp

/-- The tutorial's index, with the record of its second document cut, gets an empty file: under the number of the second document its path is found still, with other places; and the
lists of the shards have what they had. -/
theorem C117_nonvacuous : ∃ (d e d' : Dir) (x : Indexer) (D' f' : Bytes) (ns' : List (Bytes × Nat)) (w : Nat),
    History asciiUni Json.codec exCmdConfig exCmdSessions d ∧ (∀ g, g ≠ .dmd → e g = d g) ∧ Indexer.open Json.codec e = .ok x ∧
    Indexer.Session asciiUni Json.codec [47] x [⟨[101], 7, 7, some []⟩] e d' ∧ d' .dmd = some D' ∧ d' .fnm = some f' ∧ TableFile f' ns' ∧
    DocAs D' ns' 2 [47, 116, 47, 113] w 7 := by
  obtain ⟨d, hd⟩ := History.exists (u := asciiUni) exCmd_usable [47] [⟨[116, 47, 112], 0, 22, some exText1⟩, ⟨[116, 47, 113], 0, 24, some exText2⟩] [] exCmd_fits
  change History asciiUni Json.codec exCmdConfig exCmdSessions d at hd
  have hf : Fits asciiUni exCmdConfig (documents exCmdSessions) := exCmd_fits
  obtain ⟨D, f, ns, k1, k2, k3, k4, _⟩ := history_docAs exCmd_usable hd hf
  have hns : ns.length ≤ 1 + 8 := by
    obtain ⟨t, fs, t1, t2, t3⟩ := (History.rep exCmd_usable hd hf).front
    rw [k2] at t1; injection t1 with t1
    obtain ⟨t', ht, hsim⟩ := Fnames.read_write t t3.wf (t3.small hf.paths) t3.names
    rw [← t1] at ht
    have := table_one k3 (((Fnames.read_exact f).1 _).mp ⟨_, ht, rfl⟩)
    rw [this, List.length_map, hsim.1]
    have h1 := t3.size
    rw [exCmd_docs] at h1
    exact Nat.le_trans h1 (by decide)
  have hs : (documents exCmdSessions)[1]? = some ⟨[47, 116, 47, 113], 0, 24, exText2⟩ := by rw [exCmd_docs]; rfl
  obtain ⟨x, h1, ⟨d', h2⟩, h3⟩ := C117_false (new := [⟨[101], 7, 7, some []⟩]) (cwd := [47]) exCmd_usable hd hf k1 hs rfl (fun f1 ns1 j1 j2 => by
    rw [k2] at j1; injection j1 with j1; subst j1
    rw [← table_one k3 j2]
    refine ⟨?_, ?_⟩
    · have hl : (D.take (12 * (1 + 1) + 4)).length = 28 := by rw [List.length_take, k4, exCmd_docs]; decide
      simp only [numberNext, withFirst]
      rw [if_neg (by omega), hl]
      decide
    · have : (((added [47] [⟨[101], 7, 7, some []⟩]).map fun s => s.path.length).sum) = 2 := by decide +kernel
      rw [this]; omega)
  obtain ⟨D', f', ns', w, g1, g2, g3, g4⟩ := h3 d' h2
  exact ⟨d, _, d', x, D', f', ns', w, hd, fun g hg => by simp only [Dir.set, if_neg hg], h1, h2, g1, g2, g3, g4⟩

end Dupi.Props
