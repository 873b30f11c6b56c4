import Verif.Proof.DamagedIndex
import Verif.Props.Cut
/-! # C94: an index whose posting files have any contents -/

namespace Dupi.Props
open Spec

/-- **C94**, going to the last link in order to append, in any file: there is no end precisely if the links never end, a panic precisely if they lead to a length of 2^62
or more, and otherwise a result or an error. -/
theorem C94_walk (f : Bytes) (p : Poster) (hl : p.link = -1) (hh : p.head ≠ -1) :
    (p.readToLink f = .error .diverge ↔ Endless f p.head) ∧
    (p.readToLink f = .error .panic ↔ ∃ k q, Follow f k p.head q ∧ HugeAt f q) ∧
    (Ends f p.head → Tame (p.readToLink f)) := by
  obtain ⟨h1, h2, h3⟩ := readToLink_exact f p.head
  have hr : p.readToLink f = (Poster.readToLinkLoop f (f.length + 1) p.head).map fun l => { p with link := l } := by
    unfold Poster.readToLink
    rw [if_neg hh, if_neg (by rw [hl]; simp)]
    simp only [bind, Except.bind]
    cases Poster.readToLinkLoop f (f.length + 1) p.head <;> rfl
  rw [hr]
  have he : ∀ e, (Poster.readToLinkLoop f (f.length + 1) p.head).map (fun l => { p with link := l }) = .error e ↔
      Poster.readToLinkLoop f (f.length + 1) p.head = .error e := by
    intro e
    cases Poster.readToLinkLoop f (f.length + 1) p.head with
    | error e' => simp only [Except.map]; exact ⟨fun h => by injection h with h; rw [h], fun h => by injection h with h; rw [h]⟩
    | ok l => exact ⟨fun h => (by cases h), fun h => (by cases h)⟩
  refine ⟨(he _).trans h1, (he _).trans h2, fun h => ?_⟩
  rcases h3 h.1 h.2 with ⟨l, hl⟩ | ⟨e, hl⟩
  · rw [hl]; exact .inl ⟨_, rfl⟩
  · rw [hl]; exact .inr ⟨_, rfl⟩

section
variable {u : Uni} {J : CfgCodec} {srt : Sorter} {c : Config} (hU : Usable J c) (hsrt : IsSorter srt)
include hU hsrt

omit hU hsrt in
theorem route_parts {n : Nat} (h0 : 0 < n) (hn : n < 2 ^ 32) (b qn : UInt32) (hq : qn = UInt32.ofNat n) :
    qn ≠ 0 ∧ (b % qn).toNat = b.toNat % n ∧ (b / qn).toUInt16.toNat = b.toNat / n % 65536 := by
  have e : qn.toNat = n := by subst hq; simp only [UInt32.toNat_ofNat']; omega
  refine ⟨?_, by rw [UInt32.toNat_mod, e], by rw [UInt32.toNat_toUInt16, UInt32.toNat_div, e]⟩
  intro hc; rw [hc] at e; simp at e; omega

/-- **C94**, the part that holds.  Let the posting files of an index that was made by sessions be replaced by any files.  It opens, and a query can be started.
Opening it to append ends with a result or an error if from no head the links are endless or lead to a huge length.
`Get` of a blot ends with a result or an error if the links from the head of its list lead to no length that dupi does not write, and either a slice with a limit is given, or the links end. -/
theorem C94_ends_partial {h : Sessions} {d d' : Dir} (hd : History u J c h d) (hf : Fits u c (documents h)) (h1 : ∀ f, (∀ i, f ≠ .pos i) → d' f = d f)
    (h2 : ∀ i b, d (.pos i) = some b → ∃ b', d' (.pos i) = some b') :
    ∃ x q, Index.open J srt d' = .ok x ∧ x.startQuery = .ok q ∧ x.shards.length = c.numShards.toNat ∧ (∀ s ∈ x.shards, s.heads.length = 65536) ∧
      ((∀ s ∈ x.shards, ∀ p ∈ s.heads, p = -1 ∨ Ends s.file p) → Tame (Indexer.open J d')) ∧
      ∀ grow (b : Blot) fuel s p, x.shards[b.blot.toNat % c.numShards.toNat]? = some s → s.heads[b.blot.toNat / c.numShards.toNat % 65536]? = some p →
        (∀ k r, Follow s.file k p r → ¬ WildAt s.file r) →
        ((b.docs.isSome = true ∧ b.cap - b.len < fuel) ∨ (¬ Endless s.file p ∧ 522 * (s.file.length + 1) < fuel)) →
        Tame (Query.get grow x fuel q b) := by
  have hrep := History.rep hU hd hf
  obtain ⟨ps, bs, hp⟩ := hrep.parts hf
  obtain ⟨t, fl, o1, hm⟩ := openIndex_parts hU srt hrep hf hp
  obtain ⟨x0, q0, o2, hr⟩ := reading_exists hU hsrt hd hf
  rw [o1] at o2
  injection o2 with o2
  have hn := hU.shards
  have hn' := hU.shardsSmall
  have hq0 := (hr.rep hU hsrt hf).2.2.2.1
  have hst := hr.start
  rw [← o2] at hst
  let fs : Nat → Bytes := fun i => (d' (.pos i)).getD []
  have h2' : ∀ i b, d (.pos i) = some b → d' (.pos i) = some (fs i) := by
    intro i b hb
    obtain ⟨b', hb'⟩ := h2 i b hb
    show _ = some ((d' (.pos i)).getD [])
    rw [hb']; rfl
  have o3 := open_with h1 h2' o1
  obtain ⟨q, s1, s2⟩ := startQuery_with fs hst
  have hsh : ∀ (j : Nat) s, (Index.withFiles fs ⟨c, (Dmd.zeroFields :: fl).flatMap Dmd.encode, t, shardsOf srt c.numShards.toNat ps bs⟩).shards[j]? = some s →
      j < c.numShards.toNat ∧ s.heads = (ps j).map Poster.head ∧ s.counts = (ps j).map Poster.total ∧ s.file = fs j := by
    intro j s hs
    simp only [Index.withFiles, List.getElem?_mapIdx, shardsOf, List.getElem?_map, Option.map_map] at hs
    by_cases hj : j < c.numShards.toNat
    · rw [List.getElem?_range hj] at hs
      simp only [Option.map_some, Option.some.injEq] at hs
      rw [← hs]
      exact ⟨hj, rfl, rfl, rfl⟩
    · rw [List.getElem?_eq_none (by simp; omega)] at hs
      cases hs
  refine ⟨_, q, o3, s1, ?_, ?_, ?_, ?_⟩
  · simp [Index.withFiles, shardsOf]
  · intro s hs
    obtain ⟨j, hj⟩ := List.getElem?_of_mem hs
    obtain ⟨g1, g2, _, _⟩ := hsh j s hj
    rw [g2, List.length_map, (hp.closed j g1).len]
  · intro he
    obtain ⟨g, hg⟩ := indexerOpen_parts hU hrep hf h1
    rw [hg]
    have := openShards_parts hp h1 h2' c.numShards.toNat 0 (by omega) (by
      intro j _ hj p hpm
      have hj' : j < c.numShards.toNat := by omega
      have hex : ∃ s, (Index.withFiles fs ⟨c, (Dmd.zeroFields :: fl).flatMap Dmd.encode, t, shardsOf srt c.numShards.toNat ps bs⟩).shards[j]? = some s :=
        ⟨_, List.getElem?_eq_getElem (by simp only [Index.withFiles, shardsOf, List.length_mapIdx, List.length_map, List.length_range]; exact hj')⟩
      obtain ⟨s, hs⟩ := hex
      obtain ⟨_, g2, _, g4⟩ := hsh j s hs
      rw [← g4]
      exact he s (List.mem_of_getElem? hs) p.head (by rw [g2]; exact List.mem_map.mpr ⟨p, hpm, rfl⟩))
    rcases this with ⟨xs, hx⟩ | ⟨e, hx⟩
    · rw [hx]; exact .inl ⟨_, rfl⟩
    · rw [hx]; exact .inr ⟨_, rfl⟩
  · intro grow b fuel s p hs hh f1 f2
    obtain ⟨r1, r2, r3⟩ := route_parts (n := c.numShards.toNat) (by omega) (by omega) b.blot q.n (s2.trans hq0)
    obtain ⟨g1, g2, g3, g4⟩ := hsh _ s hs
    have hc : ∃ n, s.counts[(b.blot / q.n).toUInt16.toNat]? = some n := by
      refine ⟨_, List.getElem?_eq_getElem ?_⟩
      rw [g3, List.length_map, (hp.closed _ g1).len, r3]
      exact Nat.mod_lt _ (by decide)
    obtain ⟨n, hc⟩ := hc
    exact get_any grow _ q b fuel r1 (by rw [r2]; exact hs) (by rw [r3]; exact hh) hc (docid2Doc_tame hm (documents_rooted h) c _) f1 f2

omit hsrt in
/-- the parts of an index that has documents with the blot `b` -/
theorem damage_parts {h : Sessions} {d : Dir} (hd : History u J c h d) (hf : Fits u c (documents h)) {b : UInt32} (hb : found u c (documents h) b.toNat ≠ []) :
    ∃ ps bs p, Parts u c d (documents h) ps bs ∧ b.toNat % c.numShards.toNat < c.numShards.toNat ∧
      (ps (b.toNat % c.numShards.toNat))[b.toNat / c.numShards.toNat % 65536]? = some p ∧ p.head ≠ -1 := by
  have hrep := History.rep hU hd hf
  obtain ⟨ps, bs, hp⟩ := hrep.parts hf
  have hn := hU.shards
  have hj : b.toNat % c.numShards.toNat < c.numShards.toNat := Nat.mod_lt _ (by omega)
  have hcl := hp.closed _ hj
  have hk : b.toNat / c.numShards.toNat % 65536 < (ps (b.toNat % c.numShards.toNat)).length := by rw [hcl.len]; exact Nat.mod_lt _ (by decide)
  refine ⟨ps, bs, _, hp, hj, List.getElem?_eq_getElem hk, head_some hcl (List.getElem?_eq_getElem hk) ?_⟩
  intro he
  have h1 := (postings_found (u := u) hU hf.ids b).1
  rw [he] at h1
  have h2 := bucketIds_length_found u c (documents h) hf.ids b.toNat
  rw [← h1] at h2
  exact hb (List.length_eq_zero_iff.mp h2.symm)

/-- what happens to a list of the index when its first bytes are written over -/
theorem damage_get {h : Sessions} {d : Dir} (hd : History u J c h d) (hf : Fits u c (documents h)) {ps : Nat → List Poster} {bs : Nat → List Blk}
    (hp : Parts u c d (documents h) ps bs) {j k m : Nat} {p : Poster} (hj : j < c.numShards.toNat) (hk : (ps j)[k]? = some p) (hm : p.head = m)
    (w : Bytes) :
    ∃ x q, Index.open J srt (d.set (.pos j) (writeAt (render 0 (bs j)) m w)) = .ok x ∧ x.startQuery = .ok q ∧ (∃ r, x.docid2Doc 0 = .ok r) ∧
      ∀ (b : Blot), b.blot.toNat % c.numShards.toNat = j → b.blot.toNat / c.numShards.toNat % 65536 = k → ∀ grow fuel, ∃ n,
        Query.get grow x fuel q b = Query.getLoop grow x b.docs.isSome fuel ⟨0, k, 0, n, Posts.new m, writeAt (render 0 (bs j)) m w⟩ b := by
  have hrep := History.rep hU hd hf
  obtain ⟨t, fl, o1, hmeta⟩ := openIndex_parts hU srt hrep hf hp
  obtain ⟨x0, q0, o2, hr⟩ := reading_exists hU hsrt hd hf
  rw [o1] at o2
  injection o2 with o2
  have hn := hU.shards
  have hn' := hU.shardsSmall
  have hq0 := (hr.rep hU hsrt hf).2.2.2.1
  have hst := hr.start
  rw [← o2] at hst
  let d' := d.set (.pos j) (writeAt (render 0 (bs j)) m w)
  let fs : Nat → Bytes := fun i => (d' (.pos i)).getD []
  have hset : ∀ g, g ≠ .pos j → d' g = d g := by
    intro g hg
    show (d.set (.pos j) _) g = _
    simp only [Dir.set, if_neg hg]
  have hset2 : d' (.pos j) = some (writeAt (render 0 (bs j)) m w) := by
    show (d.set (.pos j) _) _ = _
    simp only [Dir.set, if_true]
  have h2' : ∀ i b, d (.pos i) = some b → d' (.pos i) = some (fs i) := by
    intro i b hb
    show _ = some ((d' (.pos i)).getD [])
    by_cases hij : i = j
    · rw [hij, hset2]; rfl
    · rw [hset (.pos i) (by intro h; injection h with h; exact hij h), hb]; rfl
  have o3 := open_with (d' := d') (fun f hf => hset f (hf j)) h2' o1
  obtain ⟨q, s1, s2⟩ := startQuery_with fs hst
  refine ⟨_, q, o3, s1, ?_, ?_⟩
  · have hl := Dmd.lookup_encode (Dmd.zeroFields :: fl) 0 (by simp)
    have hz : (Dmd.zeroFields :: fl)[(0 : UInt32).toNat]'(by simp) = Dmd.zeroFields := by simp
    rw [hz] at hl
    obtain ⟨r, hr0, _⟩ := hmeta.wf.root
    have ha := hmeta.wf.abs (v := 0) (cs := []) .root ((List.getElem?_eq_some_iff.mp hr0).1)
    have hz0 : Dmd.zeroFields.fid = 0 := rfl
    simp only [Index.docid2Doc, Index.withFiles, hl, hz0, ha, bind, Except.bind, pure, Except.pure]
    exact ⟨_, rfl⟩
  · intro b hb1 hb2 grow fuel
    obtain ⟨r1, r2, r3⟩ := route_parts (n := c.numShards.toNat) (by omega) (by omega) b.blot q.n (s2.trans hq0)
    have hs : (Index.withFiles fs ⟨c, (Dmd.zeroFields :: fl).flatMap Dmd.encode, t, shardsOf srt c.numShards.toNat ps bs⟩).shards[(b.blot % q.n).toNat]? =
        some ⟨0, (ps j).map Poster.head, (ps j).map Poster.total, srt ((ps j).map Poster.total), writeAt (render 0 (bs j)) m w⟩ := by
      rw [r2, hb1]
      simp only [Index.withFiles, List.getElem?_mapIdx, shardsOf, List.getElem?_map, List.getElem?_range hj, Option.map_some]
      congr 2
      show (d' (.pos j)).getD [] = _
      rw [hset2]; rfl
    refine ⟨p.total, ?_⟩
    unfold Query.get
    rw [if_neg r1, hs]
    simp only [bind, Except.bind, ShardIndex.readStateFor, ShardIndex.readStateForBlotAt, r3, hb2, List.getElem?_map, hk, Option.map_some, hm]

omit hU hsrt in
/-- the first one with a list -/
theorem first_head (l : List Poster) : ∀ (n k : Nat) (p : Poster), k < n → l[k]? = some p → p.head ≠ -1 →
    ∃ k' p', k' ≤ k ∧ l[k']? = some p' ∧ p'.head ≠ -1 ∧ ∀ (i : Nat) q, i < k' → l[i]? = some q → q.head = -1 := by
  intro n
  induction n with
  | zero => intro k p h; omega
  | succ n ih =>
    intro k p hkn hk hh
    by_cases hex : ∃ (i : Nat) (q : Poster), i < k ∧ l[i]? = some q ∧ q.head ≠ -1
    · obtain ⟨i, q, h1, h2, h3⟩ := hex
      obtain ⟨k', p', g1, g2⟩ := ih i q (by omega) h2 h3
      exact ⟨k', p', by omega, g2⟩
    · refine ⟨k, p, Nat.le_refl _, hk, hh, fun i q hi hq => ?_⟩
      apply Classical.byContradiction
      intro hc
      exact hex ⟨i, q, hi, hq, hc⟩

/-- **C94** is false.  In every index in which some document has some blot, write ten bytes over a place in a posting file: opening the index to append does not end,
and the index opens for reading, but some `Get` does not end. -/
theorem C94_false_hang {h : Sessions} {d : Dir} (hd : History u J c h d) (hf : Fits u c (documents h)) {b : UInt32} (hb : found u c (documents h) b.toNat ≠ []) :
    ∃ j f m, d (.pos j) = some f ∧ m + (loopBytes m).length ≤ f.length ∧ Indexer.open J (d.set (.pos j) (writeAt f m (loopBytes m))) = .error .diverge ∧
      ∃ x q b', Index.open J srt (d.set (.pos j) (writeAt f m (loopBytes m))) = .ok x ∧ x.startQuery = .ok q ∧
        ∀ grow fuel, Query.get grow x fuel q ⟨b', none⟩ = .error .diverge := by
  obtain ⟨ps, bs, p0, hp, hj, hk0, hh0⟩ := damage_parts hU hd hf hb
  have hrep := History.rep hU hd hf
  have hn := hU.shards
  have hn' := hU.shardsSmall
  obtain ⟨k, p, hkk, hk, hh, hfirst⟩ := first_head _ _ _ p0 (Nat.lt_succ_self _) hk0 hh0
  obtain ⟨m, hm, hlen⟩ := head_place (hp.closed _ hj) hk hh
  have hw : m + (loopBytes m).length ≤ (render 0 (bs (b.toNat % c.numShards.toNat))).length := hlen
  have h63 : m < 2 ^ 63 := by have := hp.small _ hj; omega
  have hdrop := writeAt_drop_le (render 0 (bs (b.toNat % c.numShards.toNat))) (loopBytes m) m (by omega)
  refine ⟨b.toNat % c.numShards.toNat, render 0 (bs (b.toNat % c.numShards.toNat)), m, hp.pos _ hj, hw, ?_, ?_⟩
  · obtain ⟨g, hg⟩ := indexerOpen_parts hU (d' := d.set (.pos (b.toNat % c.numShards.toNat)) (writeAt (render 0 (bs (b.toNat % c.numShards.toNat))) m (loopBytes m))) hrep hf
      (fun f hne => by simp only [Dir.set, if_neg (hne (b.toNat % c.numShards.toNat))])
    rw [hg]
    have he : Endless (writeAt (render 0 (bs (b.toNat % c.numShards.toNat))) m (loopBytes m)) p.head := by
      rw [hm]
      exact loop_endless (loop_chunk hdrop h63)
    rw [openShards_loop hp (j := b.toNat % c.numShards.toNat) (f := writeAt (render 0 (bs (b.toNat % c.numShards.toNat))) m (loopBytes m))
      (fun g hg => by simp only [Dir.set, if_neg hg]) (by simp only [Dir.set, if_true]) hk hh ((readToLink_exact _ _).1.mpr he) hfirst c.numShards.toNat 0 (by omega) (by omega) (by omega)]
    rfl
  · obtain ⟨x, q, o1, o2, ⟨r, o3⟩, o4⟩ := damage_get hU hsrt hd hf hp hj hk hm (loopBytes m)
    have hk' : k < 65536 := by
      rw [← (hp.closed _ hj).len]; exact (List.getElem?_eq_some_iff.mp hk).1
    have hle : k * c.numShards.toNat + b.toNat % c.numShards.toNat ≤ b.toNat := by
      have h1 : k ≤ b.toNat / c.numShards.toNat := Nat.le_trans hkk (Nat.mod_le _ _)
      have h2 : k * c.numShards.toNat ≤ b.toNat / c.numShards.toNat * c.numShards.toNat := Nat.mul_le_mul_right _ h1
      have h3 := Nat.div_add_mod b.toNat c.numShards.toNat
      rw [Nat.mul_comm] at h3
      omega
    have hbt := b.toNat_lt
    have e : (UInt32.ofNat (k * c.numShards.toNat + b.toNat % c.numShards.toNat)).toNat = k * c.numShards.toNat + b.toNat % c.numShards.toNat := by
      rw [UInt32.toNat_ofNat']; exact Nat.mod_eq_of_lt (by omega)
    refine ⟨x, q, UInt32.ofNat (k * c.numShards.toNat + b.toNat % c.numShards.toNat), o1, o2, fun grow fuel => ?_⟩
    obtain ⟨n, hg⟩ := o4 ⟨UInt32.ofNat (k * c.numShards.toNat + b.toNat % c.numShards.toNat), none⟩
      (by show (UInt32.ofNat _).toNat % _ = _; rw [e, Nat.mul_comm, Nat.mul_add_mod, Nat.mod_mod])
      (by show (UInt32.ofNat _).toNat / _ % _ = _; rw [e, Nat.mul_comm, Nat.mul_add_div (by omega), Nat.div_eq_of_lt hj, Nat.add_zero, Nat.mod_eq_of_lt hk']) grow fuel
    rw [hg]
    exact loop_get grow x hdrop h63 o3 fuel 0 k 0 n [] _

/-- **C94** is false: write one byte over the first one of the list of a blot that some document has, and the index opens, but every `Get` of the blot, into any slice
that is not full, panics. -/
theorem C94_false_panic {h : Sessions} {d : Dir} (hd : History u J c h d) (hf : Fits u c (documents h)) {b : UInt32} (hb : found u c (documents h) b.toNat ≠ []) :
    ∃ j f m, d (.pos j) = some f ∧ m < f.length ∧ ∃ x q, Index.open J srt (d.set (.pos j) (writeAt f m [1])) = .ok x ∧ x.startQuery = .ok q ∧
      ∀ grow fuel docs, (Blot.len ⟨b, some docs⟩ ≠ Blot.cap ⟨b, some docs⟩ → Query.get grow x (fuel + 1) q ⟨b, some docs⟩ = .error .panic) ∧
        Query.get grow x (fuel + 1) q ⟨b, none⟩ = .error .panic := by
  obtain ⟨ps, bs, p, hp, hj, hk, hh⟩ := damage_parts hU hd hf hb
  obtain ⟨m, hm, hlen⟩ := head_place (hp.closed _ hj) hk hh
  have hdrop := writeAt_drop_le (render 0 (bs (b.toNat % c.numShards.toNat))) [1] m (by omega)
  obtain ⟨x, q, o1, o2, _, o4⟩ := damage_get hU hsrt hd hf hp hj hk hm [1]
  refine ⟨_, _, m, hp.pos _ hj, by omega, x, q, o1, o2, fun grow fuel docs => ⟨fun hne => ?_, ?_⟩⟩
  · obtain ⟨n, hg⟩ := o4 ⟨b, some docs⟩ rfl rfl grow (fuel + 1)
    rw [hg]
    exact wild_get grow x hdrop fuel 0 _ 0 n _ _ (fun _ => hne)
  · obtain ⟨n, hg⟩ := o4 ⟨b, none⟩ rfl rfl grow (fuel + 1)
    rw [hg]
    exact wild_get grow x hdrop fuel 0 _ 0 n _ _ (fun h => by cases h)

omit hsrt in
/-- **C94** is false: write ten bytes over a place in a posting file, a length that is not one of a buffer, and opening the index to append panics. -/
theorem C94_false_append {h : Sessions} {d : Dir} (hd : History u J c h d) (hf : Fits u c (documents h)) {b : UInt32} (hb : found u c (documents h) b.toNat ≠ []) :
    ∃ j f m, d (.pos j) = some f ∧ m + hugeBytes.length ≤ f.length ∧ Indexer.open J (d.set (.pos j) (writeAt f m hugeBytes)) = .error .panic := by
  obtain ⟨ps, bs, p0, hp, hj, hk0, hh0⟩ := damage_parts hU hd hf hb
  have hrep := History.rep hU hd hf
  obtain ⟨k, p, hkk, hk, hh, hfirst⟩ := first_head _ _ _ p0 (Nat.lt_succ_self _) hk0 hh0
  obtain ⟨m, hm, hlen⟩ := head_place (hp.closed _ hj) hk hh
  have hdrop := writeAt_drop_le (render 0 (bs (b.toNat % c.numShards.toNat))) hugeBytes m (by omega)
  refine ⟨b.toNat % c.numShards.toNat, render 0 (bs (b.toNat % c.numShards.toNat)), m, hp.pos _ hj, hlen, ?_⟩
  obtain ⟨g, hg⟩ := indexerOpen_parts hU (d' := d.set (.pos (b.toNat % c.numShards.toNat)) (writeAt (render 0 (bs (b.toNat % c.numShards.toNat))) m hugeBytes)) hrep hf
    (fun f hne => by simp only [Dir.set, if_neg (hne (b.toNat % c.numShards.toNat))])
  rw [hg]
  have he : HugeAt (writeAt (render 0 (bs (b.toNat % c.numShards.toNat))) m hugeBytes) p.head := by
    rw [hm]
    refine ⟨2 ^ 62, 10, ⟨by omega, [128, 128, 128, 128, 128, 128, 128, 128, 128], 1, (render 0 (bs (b.toNat % c.numShards.toNat))).drop (m + hugeBytes.length), ?_, rfl, by omega, by decide, by decide, by decide, by decide⟩, Int.le_refl _⟩
    rw [show ((m : Nat) : Int).toNat = m by omega, hdrop]
    rfl
  rw [openShards_loop hp (j := b.toNat % c.numShards.toNat) (f := writeAt (render 0 (bs (b.toNat % c.numShards.toNat))) m hugeBytes)
    (fun g hg => by simp only [Dir.set, if_neg hg]) (by simp only [Dir.set, if_true]) hk hh ((readToLink_exact _ _).2.1.mpr ⟨0, _, rfl, he⟩) hfirst c.numShards.toNat 0 (by omega) (by omega) (by omega)]
  rfl

end

/-- Not vacuous: there is such an index, and there are files of each kind. -/
theorem C94_nonvacuous : (∃ (d : Dir) (b : UInt32), History asciiUni Json.codec exCmdConfig exCmdSessions d ∧
      found asciiUni exCmdConfig (documents exCmdSessions) b.toNat ≠ []) ∧
    Endless (loopBytes 0) 0 ∧ HugeAt hugeBytes 0 ∧ WildAt [1] 0 ∧ Ends [2] 0 := by
  refine ⟨?_, loop_endless (h := 0) (loop_chunk (rest := []) (by rw [List.append_nil]; rfl) (by decide)), ?_, ?_, ?_⟩
  · obtain ⟨d, hd⟩ := History.exists (u := asciiUni) exCmd_usable [47] [⟨[116, 47, 112], 0, 22, some exText1⟩, ⟨[116, 47, 113], 0, 24, some exText2⟩] [] exCmd_fits
    change History asciiUni Json.codec exCmdConfig exCmdSessions d at hd
    have hb : (found asciiUni exCmdConfig (documents exCmdSessions) (1 : UInt32).toNat).length = 2 := by rw [exCmd_docs]; decide +kernel
    exact ⟨d, 1, hd, fun h => by rw [h] at hb; cases hb⟩
  · exact ⟨2 ^ 62, 10, ⟨by omega, [128, 128, 128, 128, 128, 128, 128, 128, 128], 1, [], rfl, rfl, by omega, by decide, by decide, by decide, by decide⟩, Int.le_refl _⟩
  · exact ⟨-1, 1, ⟨by omega, [], 1, [], rfl, rfl, by omega, by simp, by decide, by decide, by decide⟩, .inl (by omega)⟩
  · have hn : NumberAt [2] 0 1 1 := ⟨by omega, [], 2, [], rfl, rfl, by omega, by simp, by decide, by decide, by decide⟩
    have hnc : ∀ n v q, ¬ ChunkAt [2] 0 n v q := by
      intro n v q hc
      obtain ⟨rfl, rfl⟩ := hn.unique hc.1
      exact absurd hc.2.1 (by omega)
    refine ⟨fun h => ?_, ?_⟩
    · obtain ⟨_, n, v, q, hc, _⟩ := h 1
      exact hnc _ _ _ hc
    · rintro ⟨k, q, h1, v, n, h2, h3⟩
      cases k with
      | zero =>
        rw [show q = 0 from h1] at h2
        obtain ⟨rfl, _⟩ := hn.unique h2
        omega
      | succ k =>
        obtain ⟨n, v, r, hc, _⟩ := h1
        exact hnc _ _ _ hc

end Dupi.Props
