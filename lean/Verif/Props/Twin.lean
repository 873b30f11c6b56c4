import Verif.Proof.TwinQuery
import Verif.Props.CutAppend
import Verif.Props.Faults
/-! # C99: two indexers open on one index -/

namespace Dupi.Props
open Spec

section
variable {u : Uni} {J : CfgCodec} {c : Config} {srt : Sorter} (hU : Usable J c) (hsrt : IsSorter srt) {h : Sessions} {d : Dir} (hd : History u J c h d)
  {cwdA cwdB : Bytes} {A B : List Doc} (hf : Fits u c (documents h ++ added cwdA A ++ added cwdB B))

include hU hd hf in
/-- two indexers can be open on an index at the same time, and each can add documents and close without an error -/
theorem C99_runs : ∃ d', Indexer.Twin u J cwdA A cwdB B d d' :=
  Twin.exists hU (hd.rep hU hf.left.left) hf

include hU hsrt hd hf in
theorem twin_opened {d' : Dir} (ht : Indexer.Twin u J cwdA A cwdB B d d') :
    ∃ x q, Index.open J srt d' = .ok x ∧ x.startQuery = .ok q ∧ q.n = UInt32.ofNat c.numShards.toNat ∧
      TwinHolds u c srt x (documents h) (added cwdA A) (added cwdB B) := by
  obtain ⟨x, h1, _, h2⟩ := openIndex_twin hU srt (Twin.rep hU (hd.rep hU hf.left.left) hf ht) hf
    (rooted_append (rooted_append (documents_rooted h) (added_rooted _ _)) (added_rooted _ _))
  obtain ⟨q, h3, h4⟩ := startQuery_twin h2 hsrt
  exact ⟨x, q, h1, h3, h4, h2⟩

include hU hsrt hd hf in
/-- **C99** is false as it stands: documents are lost.  Whatever the two indexers added, the index opens afterwards and counts all the documents (and the
record 0), but `Get` of a blot that only documents added by the first one have returns no document.  The second one need not have
added any. -/
theorem C99_false_lost {d' : Dir} (ht : Indexer.Twin u J cwdA A cwdB B d d') :
    ∃ x q, Index.open J srt d' = .ok x ∧ x.startQuery = .ok q ∧ Dmd.numDocs x.dmd = (documents h ++ added cwdA A ++ added cwdB B).length + 1 ∧
      ∀ b : UInt32, found u c (documents h ++ added cwdB B) b.toNat = [] → ∀ grow fuel, (documents h ++ added cwdA A ++ added cwdB B).length < fuel →
        ∃ r, Query.get grow x fuel q ⟨b, none⟩ = .ok r ∧ r.blot = b ∧ r.vis = [] := by
  obtain ⟨x, q, h1, h2, h3, h4⟩ := twin_opened hU hsrt hd hf ht
  have hn := hU.shards
  have hn' := hU.shardsSmall
  refine ⟨x, q, h1, h2, h4.num, fun b hb grow fuel hfuel => ?_⟩
  unfold found at hb
  rw [List.filter_eq_nil_iff] at hb
  obtain ⟨r, r1, r2, r3⟩ := get_twin h4 (by omega) (by omega) hf.ids grow b hfuel h3 [] (by
    rw [twinRead_cases, if_neg, if_neg]
    · intro hc
      obtain ⟨s, hs, hc⟩ := List.any_eq_true.mp hc
      exact hb s (by simp [hs]) hc
    · intro hc
      obtain ⟨s, hs, hc⟩ := List.any_eq_true.mp hc
      exact hb s (List.mem_append_right _ hs) hc) (D := metaOf []) (by simp)
  exact ⟨r, r1, r2, r3⟩

include hU hsrt hd hf in
/-- **C99**, what does hold: nothing changes for the blots that no new document has. -/
theorem C99_old_partial {d' : Dir} (ht : Indexer.Twin u J cwdA A cwdB B d d') :
    ∃ x q, Index.open J srt d' = .ok x ∧ x.startQuery = .ok q ∧ Dmd.numDocs x.dmd = (documents h ++ added cwdA A ++ added cwdB B).length + 1 ∧
      ∀ b : UInt32, found u c (added cwdA A ++ added cwdB B) b.toNat = [] → ∀ grow fuel, (documents h ++ added cwdA A ++ added cwdB B).length < fuel →
        ∃ r, Query.get grow x fuel q ⟨b, none⟩ = .ok r ∧ r.blot = b ∧ r.vis = (found u c (documents h) b.toNat).map Document.shown := by
  obtain ⟨x, q, h1, h2, h3, h4⟩ := twin_opened hU hsrt hd hf ht
  have hn := hU.shards
  have hn' := hU.shardsSmall
  refine ⟨x, q, h1, h2, h4.num, fun b hb grow fuel hfuel => ?_⟩
  unfold found at hb
  rw [List.filter_eq_nil_iff] at hb
  have hA : ∀ {X : List Document}, (∀ s ∈ X, s ∈ added cwdA A ++ added cwdB B) → X.any (fun s => hasBlot u c s.dat b.toNat) = false := by
    intro X hX
    rw [List.any_eq_false]
    intro s hs
    exact hb s (hX s hs)
  have hids := hf.left.left.ids
  obtain ⟨r, r1, r2, r3⟩ := get_twin h4 (by omega) (by omega) hf.ids grow b hfuel h3 (idsWith (fun s => hasBlot u c s.dat b.toNat) 1 (documents h)) (by
    rw [twinRead_cases, hA (X := added cwdB B) (by intro s hs; simp [hs]), if_neg (show ¬ (false = true) from nofun),
      (idsWith_nil_iff _ (added cwdA A) _).mpr (hA (by intro s hs; simp [hs])), List.append_nil]
    cases hd : (documents h).any (fun s => hasBlot u c s.dat b.toNat) with
    | true => rfl
    | false => exact (idsWith_nil_iff _ _ _).mpr hd) (D := metaOf (documents h)) (by
    intro id hid
    obtain ⟨i1, i2⟩ := idsWith_mem _ _ 1 (by omega) id hid
    exact h4.old id i1 (by omega))
  refine ⟨r, r1, r2, ?_⟩
  rw [r3, ← bucketIds_found u c _ hids, bucketIds, hasBlot_route]

include hU hsrt hd hf in
/-- **C99**, what `Get` returns, if the first indexer added only files of which the index had documents already: exactly `twinFound`. -/
theorem C99_get_partial (hA : ∀ s ∈ added cwdA A, ∃ s' ∈ documents h, s'.path = s.path) {d' : Dir} (ht : Indexer.Twin u J cwdA A cwdB B d d') :
    ∃ x q, Index.open J srt d' = .ok x ∧ x.startQuery = .ok q ∧ Dmd.numDocs x.dmd = (documents h ++ added cwdA A ++ added cwdB B).length + 1 ∧
      ∀ (b : UInt32) grow fuel, (documents h ++ added cwdA A ++ added cwdB B).length < fuel →
        ∃ r, Query.get grow x fuel q ⟨b, none⟩ = .ok r ∧ r.blot = b ∧
          r.vis = (twinFound u c (documents h) (added cwdA A) (added cwdB B) b.toNat).map Document.shown := by
  obtain ⟨x, q, h1, h2, h3, h4⟩ := twin_opened hU hsrt hd hf ht
  have hn := hU.shards
  have hn' := hU.shardsSmall
  have hids := hf.ids
  refine ⟨x, q, h1, h2, h4.num, fun b grow fuel hfuel => ?_⟩
  obtain ⟨r, r1, r2, r3⟩ := get_twin h4 (by omega) (by omega) hids grow b hfuel h3 _ rfl (D := metaOf (documents h ++ added cwdA A ++ added cwdB B)) (by
    intro id hid
    simp only [List.length_append] at hids
    rw [twinRead_cases] at hid
    have key : ∀ X : List Document, (documents h).length + X.length + 1 < 2 ^ 32 →
        id ∈ idsWith (fun s => hasBlot u c s.dat b.toNat) 1 (documents h) ++ idsWith (fun s => hasBlot u c s.dat b.toNat) ((documents h).length + 1) X →
        1 ≤ id.toNat ∧ id.toNat ≤ (documents h).length + X.length := by
      intro X hl hm
      rcases List.mem_append.mp hm with hm | hm
      · have := idsWith_mem _ _ 1 (by omega) id hm; omega
      · have := idsWith_mem _ _ _ (by omega) id hm; omega
    refine h4.all hA id ?_ ?_
    · split at hid
      · exact (key _ (by omega) hid).1
      · split at hid
        · exact (key _ (by omega) hid).1
        · simp at hid
    · simp only [List.length_append]
      split at hid
      · have := (key _ (by omega) hid).2; omega
      · split at hid
        · have := (key _ (by omega) hid).2; omega
        · simp at hid)
  refine ⟨r, r1, r2, ?_⟩
  have := congrArg (List.map Doc.ofMeta) (twinRead_found u c _ _ _ hids b.toNat)
  rw [List.map_map, List.map_map] at this
  rw [r3]
  exact this

include hU hsrt hd hf in
/-- **C99** is false as it stands: documents are mixed up.  If the `k`th document added by the second indexer has a blot, then `Get` of it shows the `k`th document
added by the first one, whatever its text. -/
theorem C99_false_mixed (hA : ∀ s ∈ added cwdA A, ∃ s' ∈ documents h, s'.path = s.path) {d' : Dir} (ht : Indexer.Twin u J cwdA A cwdB B d d') :
    ∃ x q, Index.open J srt d' = .ok x ∧ x.startQuery = .ok q ∧ ∀ (b : UInt32) (k : Nat) (a s : Document), (added cwdA A)[k]? = some a → (added cwdB B)[k]? = some s →
      hasBlot u c s.dat b.toNat = true → ∀ grow fuel, (documents h ++ added cwdA A ++ added cwdB B).length < fuel →
        ∃ r, Query.get grow x fuel q ⟨b, none⟩ = .ok r ∧ a.shown ∈ r.vis := by
  obtain ⟨x, q, h1, h2, _, h3⟩ := C99_get_partial hU hsrt hd hf hA ht
  refine ⟨x, q, h1, h2, fun b k a s ha hs hb grow fuel hfuel => ?_⟩
  obtain ⟨r, r1, _, r3⟩ := h3 b grow fuel hfuel
  refine ⟨r, r1, ?_⟩
  rw [r3]
  refine List.mem_map_of_mem ?_
  unfold twinFound
  rw [if_pos (List.any_eq_true.mpr ⟨s, List.mem_of_getElem? hs, hb⟩)]
  refine List.mem_append_right _ (List.mem_map.mpr ⟨(s, a), List.mem_filter.mpr ⟨?_, hb⟩, rfl⟩)
  have hz : ((added cwdB B).zip (added cwdA A ++ added cwdB B))[k]? = some (s, a) := by
    rw [List.getElem?_zip_eq_some]
    exact ⟨hs, by rw [List.getElem?_append_left (List.getElem?_eq_some_iff.mp ha).1]; exact ha⟩
  exact List.mem_of_getElem? hz

include hU hsrt hd in
/-- **C99** with a second indexer that adds nothing, exactly: `Get` shows nothing for a blot that no old document has, whatever the first indexer added.  For a
blot an old document has it shows all documents that have it, provided that the paths of those the first indexer added were known; otherwise it panics. -/
theorem C99_idle_partial (hf : Fits u c (documents h ++ added cwdA A)) {d' : Dir} (ht : Indexer.Twin u J cwdA A cwdB [] d d') :
    ∃ x q, Index.open J srt d' = .ok x ∧ x.startQuery = .ok q ∧ ∀ (b : UInt32) grow fuel, (documents h ++ added cwdA A).length < fuel →
      (found u c (documents h) b.toNat = [] → ∃ r, Query.get grow x fuel q ⟨b, none⟩ = .ok r ∧ r.blot = b ∧ r.vis = []) ∧
      (found u c (documents h) b.toNat ≠ [] → (∀ s ∈ found u c (added cwdA A) b.toNat, PathListed (documents h) s.path) →
        ∃ r, Query.get grow x fuel q ⟨b, none⟩ = .ok r ∧ r.blot = b ∧ r.vis = (found u c (documents h ++ added cwdA A) b.toNat).map Document.shown) ∧
      (found u c (documents h) b.toNat ≠ [] → (∃ s ∈ found u c (added cwdA A) b.toNat, ¬ PathListed (documents h) s.path) →
        Query.get grow x fuel q ⟨b, none⟩ = .error .panic) := by
  have hB : added cwdB ([] : List Doc) = [] := rfl
  have hf' : Fits u c (documents h ++ added cwdA A ++ added cwdB []) := by rw [hB, List.append_nil]; exact hf
  obtain ⟨x, q, h1, h2, h3, h4⟩ := twin_opened hU hsrt hd hf' ht
  have hn := hU.shards
  have hn' := hU.shardsSmall
  have hids := hf.ids
  rw [hB] at h4
  have hids' : (documents h ++ added cwdA A ++ []).length + 1 < 2 ^ 32 := by rw [List.append_nil]; exact hids
  refine ⟨x, q, h1, h2, fun b grow fuel hfuel => ?_⟩
  have hfuel' : (documents h ++ added cwdA A ++ []).length < fuel := by rw [List.append_nil]; exact hfuel
  have hany : found u c (documents h) b.toNat = [] ↔ (documents h).any (fun s => hasBlot u c s.dat b.toNat) = false := by
    unfold found
    rw [List.filter_eq_nil_iff, List.any_eq_false]
  have hcase := twinRead_cases u c (documents h) (added cwdA A) [] b.toNat
  rw [List.any_nil, if_neg (show ¬ (false = true) from nofun)] at hcase
  have hold : ∀ id ∈ idsWith (fun s => hasBlot u c s.dat b.toNat) 1 (documents h), x.docid2Doc id = .ok (metaOf (documents h ++ added cwdA A) id) := by
    intro id hid
    simp only [List.length_append] at hids
    obtain ⟨i1, i2⟩ := idsWith_mem _ _ 1 (by omega) id hid
    rw [h4.old id i1 (by omega)]
    unfold metaOf
    rw [List.getElem?_append_left (by omega)]
  have hnew : ∀ id ∈ idsWith (fun s => hasBlot u c s.dat b.toNat) ((documents h).length + 1) (added cwdA A), ∃ s ∈ found u c (added cwdA A) b.toNat,
      s.meta = metaOf (documents h ++ added cwdA A) id ∧
      (PathListed (documents h) s.path → x.docid2Doc id = .ok s.meta) ∧ (¬ PathListed (documents h) s.path → x.docid2Doc id = .error .panic) := by
    intro id hid
    simp only [List.length_append] at hids
    obtain ⟨k, s, k1, k2, k3⟩ := (idsWith_iff _ _ _ (by omega) id).mp hid
    refine ⟨s, List.mem_filter.mpr ⟨List.mem_of_getElem? k1, k2⟩, ?_, h4.idle rfl k s k1 id (by omega)⟩
    unfold metaOf
    rw [List.getElem?_append_right (by omega), show id.toNat - 1 - (documents h).length = k by omega, k1]
  refine ⟨fun hb => ?_, fun hb hk => ?_, fun hb hk => ?_⟩
  · obtain ⟨r, r1, r2, r3⟩ := get_twin h4 (by omega) (by omega) hids' grow b hfuel' h3 [] (by
      rw [hcase, hany.mp hb]; rfl) (D := metaOf []) (by simp)
    exact ⟨r, r1, r2, r3⟩
  · have hb' : (documents h).any (fun s => hasBlot u c s.dat b.toNat) = true := by
      rw [Ne, hany] at hb; simpa using hb
    rw [if_pos hb'] at hcase
    obtain ⟨r, r1, r2, r3⟩ := get_twin h4 (by omega) (by omega) hids' grow b hfuel' h3 _ hcase.symm (D := metaOf (documents h ++ added cwdA A)) (by
      intro id hid
      rcases List.mem_append.mp hid with hid | hid
      · exact hold id hid
      · obtain ⟨s, s1, s2, s3, _⟩ := hnew id hid
        rw [← s2]
        exact s3 (hk s s1))
    refine ⟨r, r1, r2, ?_⟩
    rw [r3, ← bucketIds_found u c _ hids, bucketIds, hasBlot_route, idsWith_append, Nat.add_comm 1]
  · have hb' : (documents h).any (fun s => hasBlot u c s.dat b.toNat) = true := by
      rw [Ne, hany] at hb; simpa using hb
    rw [if_pos hb'] at hcase
    obtain ⟨hwl, rs, hdel, hget⟩ := get_twin_route h4 (by omega) (by omega) hids' b h3 _ hcase.symm
    rw [hget]
    refine getLoop_panics grow _ fuel rs _ hdel ?_ ?_ (by omega)
    · intro id hid
      rcases List.mem_append.mp hid with hid | hid
      · exact .inl ⟨_, hold id hid⟩
      · obtain ⟨s, s1, s2, s3, s4⟩ := hnew id hid
        exact (Classical.em (PathListed (documents h) s.path)).imp (fun hs => ⟨_, s3 hs⟩) s4
    · obtain ⟨s, s1, s2⟩ := hk
      obtain ⟨t1, t2⟩ := List.mem_filter.mp s1
      obtain ⟨k, hkl, rfl⟩ := List.getElem_of_mem t1
      simp only [List.length_append] at hids
      have he : (UInt32.ofNat ((documents h).length + 1 + k)).toNat = (documents h).length + 1 + k := by
        rw [UInt32.toNat_ofNat', Nat.mod_eq_of_lt (by omega)]
      refine ⟨UInt32.ofNat ((documents h).length + 1 + k), List.mem_append_right _ ((idsWith_iff _ _ _ (by omega) _).mpr
        ⟨k, _, List.getElem?_eq_getElem hkl, t2, he⟩), ?_⟩
      exact (h4.idle rfl k _ (List.getElem?_eq_getElem hkl) _ (by omega)).2 s2

end

/-! ### An example -/

/-- eleven other words -/
def exText3 : Bytes := [108, 32, 109, 32, 110, 32, 111, 32, 112, 32, 113, 32, 114, 32, 115, 32, 116, 32, 117, 32, 118, 46]

/-- added by the first one: another part of the first file -/
def exTwinA : List Doc := [⟨[116, 47, 112], 22, 44, some exText3⟩]

/-- added by the second one: the first text in another file -/
def exTwinB : List Doc := [⟨[116, 47, 114], 0, 22, some exText1⟩]

theorem exTwin_fits : Fits asciiUni exCmdConfig (documents exCmdSessions ++ added [47] exTwinA ++ added [47] exTwinB) := by
  rw [exCmd_docs]
  exact ⟨by decide +kernel, by decide +kernel, by decide +kernel⟩

theorem exTwin_paths : ∀ s ∈ added [47] exTwinA, ∃ s' ∈ documents exCmdSessions, s'.path = s.path := by
  rw [exCmd_docs]; decide +kernel

theorem exTwin_blots : hasBlot asciiUni exCmdConfig exText1 1 = true ∧ hasBlot asciiUni exCmdConfig exText3 1 = false ∧
    ∃ b : UInt32, hasBlot asciiUni exCmdConfig exText3 b.toNat = true ∧ hasBlot asciiUni exCmdConfig exText1 b.toNat = false ∧ hasBlot asciiUni exCmdConfig exText2 b.toNat = false := by
  refine ⟨by decide +kernel, by decide +kernel, ((blotsOf asciiUni exCmdConfig exText3).headD 0), by decide +kernel, by decide +kernel, by decide +kernel⟩

/-- Two indexers on the index of the tutorial: the document of the first one is not found under its blot, and it is shown for a blot it does not
have, where the document of the second one should be. -/
theorem C99_nonvacuous : ∃ (d d' : Dir) (x : Index) (q : QState) (b : UInt32) (r1 r2 : Blot),
    History asciiUni Json.codec exCmdConfig exCmdSessions d ∧ Indexer.Twin asciiUni Json.codec [47] exTwinA [47] exTwinB d d' ∧
    Index.open Json.codec mergeSorter d' = .ok x ∧ x.startQuery = .ok q ∧
    hasBlot asciiUni exCmdConfig exText3 b.toNat = true ∧ Query.get (fun _ => 0) x 5 q ⟨b, none⟩ = .ok r1 ∧ r1.vis = [] ∧
    hasBlot asciiUni exCmdConfig exText3 1 = false ∧ hasBlot asciiUni exCmdConfig exText1 1 = true ∧ Query.get (fun _ => 0) x 5 q ⟨1, none⟩ = .ok r2 ∧
    r2.vis = [⟨[47, 116, 47, 112], 0, 22, none⟩, ⟨[47, 116, 47, 113], 0, 24, none⟩, ⟨[47, 116, 47, 112], 22, 44, none⟩] := by
  obtain ⟨d, hd⟩ := History.exists (u := asciiUni) exCmd_usable [47] [⟨[116, 47, 112], 0, 22, some exText1⟩, ⟨[116, 47, 113], 0, 24, some exText2⟩] [] exCmd_fits
  change History asciiUni Json.codec exCmdConfig exCmdSessions d at hd
  obtain ⟨d', ht⟩ := C99_runs exCmd_usable hd exTwin_fits
  obtain ⟨x, q, h1, h2, _, h3⟩ := C99_get_partial exCmd_usable mergeSorter_isSorter hd exTwin_fits exTwin_paths ht
  obtain ⟨x', q', h1', h2', _, h3'⟩ := C99_false_lost exCmd_usable mergeSorter_isSorter hd exTwin_fits ht
  rw [h1] at h1'; injection h1' with h1'; subst h1'
  rw [h2] at h2'; injection h2' with h2'; subst h2'
  obtain ⟨e1, e2, b, e3, e4, e5⟩ := exTwin_blots
  have hl : (documents exCmdSessions ++ added [47] exTwinA ++ added [47] exTwinB).length < 5 := by rw [exCmd_docs]; decide +kernel
  have hB : added [47] exTwinB = [⟨[47, 116, 47, 114], 0, 22, exText1⟩] := by decide +kernel
  obtain ⟨r1, g1, _, g2⟩ := h3' b (by
    rw [exCmd_docs, hB]
    simp [found, e4, e5]) (fun _ => 0) 5 hl
  obtain ⟨r2, k1, _, k2⟩ := h3 1 (fun _ => 0) 5 hl
  refine ⟨d, d', x, q, b, r1, r2, hd, ht, h1, h2, e3, g1, g2, e2, e1, k1, ?_⟩
  rw [k2, exCmd_docs]
  decide +kernel

theorem exTwin_fits' : Fits asciiUni exCmdConfig (documents exCmdSessions ++ added [47] exTwinB) := by
  rw [exCmd_docs]
  exact ⟨by decide +kernel, by decide +kernel, by decide +kernel⟩

/-- The first indexer adds a copy of the first text as a new file and closes, then the second one closes without having added anything: a query that
finds the first text panics. -/
theorem C99_false_panics : ∃ (d d' : Dir) (x : Index) (q : QState),
    History asciiUni Json.codec exCmdConfig exCmdSessions d ∧ Indexer.Twin asciiUni Json.codec [47] exTwinB [47] [] d d' ∧
    Index.open Json.codec mergeSorter d' = .ok x ∧ x.startQuery = .ok q ∧ Query.get (fun _ => 0) x 5 q ⟨1, none⟩ = .error .panic := by
  obtain ⟨d, hd⟩ := History.exists (u := asciiUni) exCmd_usable [47] [⟨[116, 47, 112], 0, 22, some exText1⟩, ⟨[116, 47, 113], 0, 24, some exText2⟩] [] exCmd_fits
  change History asciiUni Json.codec exCmdConfig exCmdSessions d at hd
  obtain ⟨d', ht⟩ := C99_runs (u := asciiUni) exCmd_usable hd (cwdA := [47]) (cwdB := [47]) (A := exTwinB) (B := []) (by
    rw [show added [47] ([] : List Doc) = [] from rfl, List.append_nil]; exact exTwin_fits')
  obtain ⟨x, q, h1, h2, h3⟩ := C99_idle_partial exCmd_usable mergeSorter_isSorter hd exTwin_fits' ht
  refine ⟨d, d', x, q, hd, ht, h1, h2, ?_⟩
  have hl : (documents exCmdSessions ++ added [47] exTwinB).length < 5 := by rw [exCmd_docs]; decide +kernel
  obtain ⟨_, _, h4⟩ := h3 1 (fun _ => 0) 5 hl
  rw [exCmd_docs] at h4
  refine h4 (by decide +kernel) ⟨⟨[47, 116, 47, 114], 0, 22, exText1⟩, by decide +kernel, ?_⟩
  unfold PathListed
  decide +kernel

end Dupi.Props
