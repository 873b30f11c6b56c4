import Verif.Proof.PowerLoss
import Verif.Props.Cut
import Verif.Props.AnyDir
/-! # C98: an index after a loss of power -/

namespace Dupi.Props
open Spec

/-! ## The configuration -/

/-- **C98**, the configuration.  After a loss of power the configuration is read as it was, or there is an error. -/
theorem C98_config_partial {P : Nat} {d d' : Dir} (h : PowerLoss P d d') {c : Config} (hc : Config.readFrom Json.codec d = .ok c) :
    Config.readFrom Json.codec d' = .ok c ∨ Errs (Config.readFrom Json.codec d') := by
  rcases readFrom_tame d' with ⟨c', h'⟩ | h'
  · left
    have h2 := h'
    unfold Config.readFrom Dir.read at h'
    cases hb' : d' .cfg with
    | none => rw [hb'] at h'; cases h'
    | some b' =>
      rw [hb'] at h'
      simp only [bind, Except.bind] at h'
      cases hj : Json.codec.dec b' with
      | error e => rw [hj] at h'; cases h'
      | ok c2 =>
        obtain ⟨v, hv, _⟩ := (Json.unmarshal_exact b' c2).mp hj
        have hz := Json.isJson_nz hv
        rcases h .cfg with h0 | ⟨b, b2, h3, h4, h5⟩
        · rw [hb'] at h0; cases h0
        · rw [hb'] at h4; injection h4 with h4; subst h4
          have hcut := h5.noZero hz
          let e : Dir := fun f => if f = .cfg then some b' else none
          have he : CutFrom d e := by
            intro f
            by_cases hf : f = .cfg
            · subst hf; exact .inr ⟨b, b'.length, h3, by show some b' = _; rw [← hcut]⟩
            · exact .inl (if_neg hf)
          have hee : Config.readFrom Json.codec e = Config.readFrom Json.codec d' := by
            unfold Config.readFrom Dir.read
            rw [hb', show e .cfg = some b' from if_pos rfl]
          rcases readFrom_cutFrom he hc with g | ⟨_, g⟩
          · rw [← hee, g, hc]
          · rw [hee, h2] at g; cases g
  · exact .inr h'

/-- **C98**, the configuration: an index that opens after a loss of power has the configuration it had. -/
theorem C98_open_partial {P : Nat} {d d' : Dir} (h : PowerLoss P d d') {srt : Sorter} {x x' : Index} (hx : Index.open Json.codec srt d = .ok x)
    (hx' : Index.open Json.codec srt d' = .ok x') : x'.config = x.config ∧ x'.shards.length = x.shards.length := by
  have h1 := (openIndex_inv hx).1
  have h1' := (openIndex_inv hx').1
  have he : x'.config = x.config := by
    rcases C98_config_partial h h1 with g | ⟨_, g⟩
    · rw [h1'] at g; injection g
    · rw [h1'] at g; cases g
  exact ⟨he, by rw [(opened hx).2.1, (opened hx').2.1, he]⟩

/-! ## Posting files -/

theorem zero_errs {p : Posts} {f : Bytes} (h0 : 0 ≤ p.nextpos) (h : f[p.nextpos.toNat]? = some 0) : ∃ s, p.readNext f = fail (.msg s) := by
  obtain ⟨hl, hg⟩ := List.getElem?_eq_some_iff.mp h
  have hn : NumberAt f p.nextpos 0 1 := by
    refine ⟨h0, [], 0, f.drop (p.nextpos.toNat + 1), ?_, rfl, by decide, by simp, by decide, by decide, by decide⟩
    rw [List.nil_append, ← hg, ← List.drop_eq_getElem_cons hl]
  have hv := (readVarintAt_any f _ _ _).mpr hn
  have hr : readAt f (p.nextpos + (1 : Nat)) (0 : Int).toNat = .ok [] := by
    unfold readAt
    rw [if_neg (by omega)]; rfl
  refine ⟨"error decoding uvarint delta", ?_⟩
  unfold Posts.readNext
  simp only [hv, bind, Except.bind, Posts.wrapErr]
  rw [if_neg (by unfold Posts.bufLen; decide)]
  simp only [hr]
  rfl

/-- **C98**, posting files.  In any directory that opened, `Get` of a blot whose list begins at a byte that is zero (as it is if the page there was lost) returns an error. -/
theorem C98_get_partial {srt : Sorter} (hsrt : IsSorter srt) {d : Dir} {x : Index} (hx : Index.open Json.codec srt d = .ok x) (hn : 0 < x.config.numShards)
    (hn' : x.config.numShards < 2 ^ 32) :
    ∃ q, x.startQuery = .ok q ∧ ∀ grow (b : UInt32) fuel post h, ListAt d (b.toNat % x.config.numShards.toNat) (b.toNat / x.config.numShards.toNat % 65536) post h →
      0 ≤ h → post[h.toNat]? = some 0 → Errs (Query.get grow x (fuel + 1) q ⟨b, none⟩) := by
  obtain ⟨o1, o2, o3⟩ := opened hx
  obtain ⟨q, s1, s2⟩ := startQuery_any hsrt o2 (by omega) (by omega) o3
  refine ⟨q, s1, fun grow b fuel post h hl h0 hz => ?_⟩
  obtain ⟨r1, r2, r3⟩ := route_parts (n := x.config.numShards.toNat) (by omega) (by omega) b q.n s2.qn
  have hlt : b.toNat % x.config.numShards.toNat < x.shards.length := by rw [o2]; exact Nat.mod_lt _ (by omega)
  have hs := List.getElem?_eq_getElem hlt
  have hr := o3 _ _ hs
  obtain ⟨e1, e2⟩ := hr.back _ _ _ hl
  subst e1
  have hk : b.toNat / x.config.numShards.toNat % 65536 < 65536 := Nat.mod_lt _ (by decide)
  have hc := List.getElem?_eq_getElem (l := x.shards[b.toNat % x.config.numShards.toNat].counts) (by rw [hr.counts]; exact hk)
  obtain ⟨s, hs1⟩ := zero_errs (p := Posts.new h) h0 hz
  refine ⟨.msg s, ?_⟩
  have hnx : (Posts.new h).next x.shards[b.toNat % x.config.numShards.toNat].file = fail (.msg s) := by
    unfold Posts.next
    rw [if_pos (show (Posts.new h).i = (Posts.new h).docids.length from rfl), if_neg (show ¬ (Posts.new h).nextpos = -1 by simp only [Posts.new]; omega), hs1]
    rfl
  unfold Query.get
  rw [if_neg r1]
  simp only [r2, hs, ShardIndex.readStateFor, ShardIndex.readStateForBlotAt, r3, e2, hc, bind, Except.bind, Query.getLoop, Option.isSome_none, Bool.false_and, ReadState.next, hnx]
  rfl

section
variable {u : Uni} {srt : Sorter} {c : Config} (hU : Usable Json.codec c) (hsrt : IsSorter srt)
include hU hsrt

/-! ## It is false as it stands -/

/-- **C98** is false as it stands: of every index that was made by sessions a loss of power may leave only zeros in the path table, and then the index opens, and `Get`
of every blot that has a document panics. -/
theorem C98_false_paths (P : Nat) {h : Sessions} {d : Dir} (hd : History u Json.codec c h d) (hf : Fits u c (documents h)) :
    ∃ d' x q, PowerLoss P d d' ∧ Index.open Json.codec srt d' = .ok x ∧ x.startQuery = .ok q ∧
      ∀ b : UInt32, found u c (documents h) b.toNat ≠ [] → ∀ grow fuel, Query.get grow x (fuel + 1) q ⟨b, none⟩ = .error .panic := by
  obtain ⟨x, q, o1, hr⟩ := reading_exists hU hsrt hd hf
  obtain ⟨h1, h2, ⟨f, h3, h3'⟩, _⟩ := openIndex_inv o1
  have hne : ∃ a f', f = a :: f' := by
    cases f with
    | nil => cases h3'
    | cons a f' => exact ⟨a, f', rfl⟩
  obtain ⟨a, f', rfl⟩ := hne
  have hbl : blank (a :: f') = 0 :: List.replicate f'.length 0 := by
    unfold blank; rw [List.length_cons, List.replicate_succ]
  have ht : Fnames.read (blank (a :: f')) = .ok [] := by rw [hbl]; rfl
  have ho := open_with_meta o1 (dmd := x.dmd) ht
  have he : (d.set .dmd x.dmd).set .fnm (blank (a :: f')) = d.set .fnm (blank (a :: f')) := by
    funext g
    simp only [Dir.set]
    split
    · rfl
    · split
      · rename_i e; rw [e, h2]
      · rfl
  rw [he] at ho
  refine ⟨_, _, q, Spec.PowerLoss.blank P h3, ho, hr.start, fun b hb => ?_⟩
  obtain ⟨x', o1', id, k1, k2⟩ := get_first (srt := srt) hU hsrt hd hf hb
  rw [o1] at o1'; injection o1' with o1'; subst o1'
  refine k2 x.dmd [] q .panic hr.start ?_ (by intro e h; cases h)
  exact ((docid2Doc_exact (x := { x with dmd := x.dmd, fnames := [] }) (ns := []) rfl (by simp) id).2 _ ⟨k1, rfl⟩).2.1 (Nat.zero_le _)

omit hU hsrt in
theorem lookup_blank (b : Bytes) (id : UInt32) (h : 12 * (id.toNat + 1) ≤ b.length) : Dmd.lookup (blank b) id = .ok ⟨0, 0, 0⟩ := by
  have h1 : (blank b).drop (id.toNat * 12) = List.replicate 12 0 ++ List.replicate (b.length - id.toNat * 12 - 12) 0 := by
    unfold blank
    rw [List.drop_replicate, List.replicate_append_replicate]
    congr 1
    omega
  have h2 : readFull ((blank b).drop (id.toNat * Dmd.rcdSize)) Dmd.rcdSize = .ok (List.replicate 12 0, List.replicate (b.length - id.toNat * 12 - 12) 0) := by
    simp only [Dmd.rcdSize, readFull, h1]
    rw [if_pos (by simp)]
    rw [List.take_left' (by simp), List.drop_left' (by simp)]
  simp only [Dmd.lookup, h2, bind, Except.bind]
  rfl

/-- **C98** is false as it stands: of every index that was made by sessions a loss of power may leave only zeros in the file of records, and then the index opens, and
every document that `Get` finds is shown as the root directory, from 0 to 0. -/
theorem C98_false_records (P : Nat) {h : Sessions} {d : Dir} (hd : History u Json.codec c h d) (hf : Fits u c (documents h)) :
    ∃ d' x q, PowerLoss P d d' ∧ Index.open Json.codec srt d' = .ok x ∧ x.startQuery = .ok q ∧
      ∀ grow (b : UInt32) fuel, (documents h).length < fuel →
        ∃ r, Query.get grow x fuel q ⟨b, none⟩ = .ok r ∧ r.blot = b ∧ r.vis = (found u c (documents h) b.toNat).map fun _ => ⟨[47], 0, 0, none⟩ := by
  obtain ⟨x, q, o1, hr⟩ := reading_exists hU hsrt hd hf
  obtain ⟨g1, _, _, g4, g5, _⟩ := hr.rep hU hsrt hf
  obtain ⟨h1, h2, ⟨f, h3, h3'⟩, _⟩ := openIndex_inv o1
  have ho := open_with_meta o1 (dmd := blank x.dmd) h3'
  have he : (d.set .dmd (blank x.dmd)).set .fnm f = d.set .dmd (blank x.dmd) := by
    funext g
    simp only [Dir.set]
    split
    · rename_i e; subst e; rw [if_neg (by intro h; cases h), h3]
    · rfl
  rw [he] at ho
  have hn := hU.shards
  have hn' := hU.shardsSmall
  have hdoc : ∀ j k, j < c.numShards.toNat → k < 65536 → ∀ id ∈ bucketIds u c (documents h) j k,
      ({ x with dmd := blank x.dmd, fnames := x.fnames } : Index).docid2Doc id = .ok ([47], 0, 0) := by
    intro j k hj hk id hid
    have hx := g1.doc j k hj hk id hid
    have hlen : 12 * (id.toNat + 1) ≤ x.dmd.length := by
      apply Classical.byContradiction
      intro hc
      obtain ⟨e, he⟩ := (lookup_exact x.dmd id).2 (by omega)
      simp only [Index.docid2Doc, he] at hx
      cases hx
    have ht := ((Fnames.read_exact f).1 _).mp ⟨_, h3', rfl⟩
    have hp : ∀ n ∈ x.fnames.map Fnames.says, n.2 < x.fnames.length := by
      obtain ⟨_, _, _, _, _, _, _, h⟩ := ht
      intro n hn
      have := h n hn
      rwa [List.length_map] at this
    have hpos : 0 < x.fnames.length := by
      cases hxf : x.fnames with
      | nil =>
        obtain ⟨r, r1, r2⟩ := (lookup_exact x.dmd id).1 _ ⟨hlen, rfl⟩
        have := Fnames.abs_outside (t := x.fnames) (v := r.fid) (by rw [hxf]; exact Nat.zero_le _)
        simp only [Index.docid2Doc, r1, this, bind, Except.bind] at hx
        cases hx
      | cons => simp
    have ha := (abs_exact hp 0).1 [] hpos .root
    simp only [Index.docid2Doc, lookup_blank x.dmd id hlen, ha, bind, Except.bind, pure, Except.pure]
    rfl
  have hH : Holds srt { x with dmd := blank x.dmd, fnames := x.fnames } c.numShards.toNat (bucketIds u c (documents h)) (fun _ => ([47], 0, 0)) := ⟨g1.len, g1.sh, hdoc⟩
  refine ⟨_, _, q, Spec.PowerLoss.blank P h2, ho, hr.start, fun grow b fuel hfuel => ?_⟩
  obtain ⟨hz, s, rs, m1, m2, m3, m4⟩ := Query.get_route hH (by omega) (by omega) b g4
  obtain ⟨r, k1, k2, k3, _⟩ := Query.getLoop_unlim grow _ fuel rs ⟨b, none⟩ m3 m4 (Nat.lt_of_le_of_lt (idsWith_length _ _ _) hfuel)
  refine ⟨r, ?_, k2, ?_⟩
  · simp only [Query.get, if_neg hz, m1, m2, bind, Except.bind, Option.isSome_none]; exact k1
  · rw [k3]
    have hlen := bucketIds_length_found u c (documents h) hf.ids b.toNat
    show [] ++ _ = _
    rw [List.nil_append, List.map_const', List.map_const', hlen]
    rfl

/-- **C98** is false as it stands: of every index that was made by sessions a loss of power may leave only zeros in the heads of a shard that has documents, and then the index
opens, and `Get` of every blot of that shard returns the documents of one and the same blot. -/
theorem C98_false_heads (P : Nat) {h : Sessions} {d : Dir} (hd : History u Json.codec c h d) (hf : Fits u c (documents h)) {b1 : UInt32}
    (hb1 : found u c (documents h) b1.toNat ≠ []) :
    ∃ d' x q, PowerLoss P d d' ∧ Index.open Json.codec srt d' = .ok x ∧ x.startQuery = .ok q ∧
      ∃ b0 : UInt32, found u c (documents h) b0.toNat ≠ [] ∧
        ∀ grow (b : UInt32) fuel, b.toNat % c.numShards.toNat = b1.toNat % c.numShards.toNat → (documents h).length < fuel →
          ∃ r, Query.get grow x fuel q ⟨b, none⟩ = .ok r ∧ r.blot = b ∧ r.vis = (found u c (documents h) b0.toNat).map Document.shown := by
  have hn := hU.shards
  have hn' := hU.shardsSmall
  have hrep := History.rep hU hd hf
  obtain ⟨ps, bs, hp⟩ := hrep.parts hf
  obtain ⟨t, fs, o1, _⟩ := openIndex_parts hU srt hrep hf hp
  obtain ⟨x, q0, o1', hr⟩ := reading_exists hU hsrt hd hf
  obtain ⟨g1, _, _, g4, g5, _⟩ := hr.rep hU hsrt hf
  have hxs : x.shards = shardsOf srt c.numShards.toNat ps bs := by
    rw [o1] at o1'; injection o1' with e; rw [← e]
  obtain ⟨j, hj⟩ : ∃ j, j = b1.toNat % c.numShards.toNat := ⟨_, rfl⟩
  have hjn : j < c.numShards.toNat := by rw [hj]; exact Nat.mod_lt _ (by omega)
  have hcl := hp.closed j hjn
  have hsj : x.shards[j]? = some ⟨0, (ps j).map Poster.head, (ps j).map Poster.total, srt ((ps j).map Poster.total), render 0 (bs j)⟩ := by
    rw [hxs, shardsOf, List.getElem?_map, List.getElem?_range hjn]; rfl
  -- the first block
  have hbs : bs j ≠ [] := by
    intro hc
    obtain ⟨e1, e2⟩ := postings_found (u := u) hU hf.ids b1
    have hk : b1.toNat / c.numShards.toNat % 65536 < (ps j).length := by rw [hcl.len]; exact Nat.mod_lt _ (by decide)
    have hh := head_some hcl (List.getElem?_eq_getElem hk) (by
      intro h0
      rw [hj] at h0
      rw [h0] at e2
      exact hb1 (List.length_eq_zero_iff.mp e2.symm))
    have := (hcl.rep _ _ (List.getElem?_eq_getElem hk)).1.head
    rw [hc] at this
    exact hh this
  obtain ⟨k0, rest, hk0⟩ := List.exists_cons_of_ne_nil hbs
  have ho : k0.owner < 65536 := hcl.owner k0 (by rw [hk0]; simp)
  have ho' : k0.owner < (ps j).length := by rw [hcl.len]; exact ho
  have hpo := List.getElem?_eq_getElem ho'
  have hh0 : (ps j)[k0.owner].head = 0 := by
    rw [(hcl.rep _ _ hpo).1.head, hk0]
    simp [nextOff]
  have hposts : PostsRep (render 0 (bs j)) (Posts.new 0) (bucketIds u c (documents h) j k0.owner) :=
    (g1.sh j _ hsj).posts k0.owner 0 (by rw [List.getElem?_map, hpo, Option.map_some, hh0])
  have hval : bucketIds u c (documents h) j k0.owner ≠ [] := by
    intro hc
    rw [hc] at hposts
    obtain ⟨p', _, ⟨_, _, _, _, _, _, _, _, hrem⟩, hlt⟩ := hposts.readNext rfl (by simp [Posts.new])
    have := congrArg List.length hrem
    simp only [List.length_nil, List.length_append, List.length_drop] at this
    omega
  have hsmall := bucket_small hjn ho hval
  -- the directory
  obtain ⟨c', dmd, f, ns, c1, c2, c3, c4, c5, c6⟩ := (C97_open srt d).1.mp ⟨x, o1'⟩
  have hcc : c' = c := by
    have := (openIndex_inv o1').1
    rw [c1, g5] at this
    injection this
  subst hcc
  obtain ⟨iix, post, es, i1, i2, i3, i4⟩ := c6 j hjn
  have hlong := Spec.Entries.long es iix i3
  rw [i4] at hlong
  have hpost : post = render 0 (bs j) := by
    have := hp.pos j hjn
    rw [i2] at this; injection this
  have hzero : Entries (blank iix) (List.replicate 65536 (0, 0)) := Spec.Entries.zeros 65536 iix.length hlong
  obtain ⟨d', hd'⟩ : ∃ d', d' = d.set (.iix j) (blank iix) := ⟨_, rfl⟩
  have hset : ∀ g, g ≠ .iix j → d' g = d g := by
    intro g hg; rw [hd']; simp only [Dir.set]; rw [if_neg hg]
  have hseti : d' (.iix j) = some (blank iix) := by rw [hd']; simp [Dir.set]
  have hcfg : Config.readFrom Json.codec d' = .ok c' := by
    rw [← c1]; unfold Config.readFrom Dir.read; rw [hset .cfg nofun]
  obtain ⟨x', hx'⟩ := (C97_open srt d').1.mpr ⟨c', dmd, f, ns, hcfg, by rw [hset .dmd nofun]; exact c2, by rw [hset .fnm nofun]; exact c3, c4, c5, by
    intro i hi
    by_cases hij : i = j
    · subst hij
      exact ⟨_, post, _, hseti, by rw [hset (.pos i) nofun]; exact i2, hzero, List.length_replicate⟩
    · obtain ⟨iix', post', es', k1, k2, k3, k4⟩ := c6 i hi
      exact ⟨iix', post', es', by rw [hset (.iix i) (by intro e; injection e with e; exact hij e)]; exact k1, by rw [hset (.pos i) nofun]; exact k2, k3, k4⟩⟩
  obtain ⟨y1, y2, y3⟩ := opened hx'
  obtain ⟨z1, z2, ⟨f', z3, z3'⟩, _⟩ := openIndex_inv hx'
  have hcx : x'.config = c' := by rw [hcfg] at z1; injection z1 with z1; exact z1.symm
  rw [hcx] at y2
  obtain ⟨w1, w2, ⟨f2, w3, w3'⟩, _⟩ := openIndex_inv o1'
  have hdmd : x'.dmd = x.dmd := by
    rw [hset .dmd nofun, w2] at z2; injection z2 with z2; exact z2.symm
  have hfnm : x'.fnames = x.fnames := by
    rw [hset .fnm nofun, w3] at z3; injection z3 with z3; subst z3
    rw [w3'] at z3'; injection z3' with z3'; exact z3'.symm
  obtain ⟨q, s1, s2⟩ := startQuery_any hsrt y2 (by omega) (by omega) y3
  have e1 : (k0.owner * c'.numShards.toNat + j) % c'.numShards.toNat = j := by rw [Nat.mul_add_mod_self_right, Nat.mod_eq_of_lt hjn]
  have e2 : (k0.owner * c'.numShards.toNat + j) / c'.numShards.toNat % 65536 = k0.owner := by
    rw [Nat.mul_comm, Nat.mul_add_div (by omega), Nat.div_eq_of_lt hjn, Nat.add_zero, Nat.mod_eq_of_lt ho]
  have e0 : (UInt32.ofNat (k0.owner * c'.numShards.toNat + j)).toNat = k0.owner * c'.numShards.toNat + j := by
    rw [UInt32.toNat_ofNat', Nat.mod_eq_of_lt hsmall]
  have hfo := bucketIds_found u c' (documents h) hf.ids (k0.owner * c'.numShards.toNat + j)
  rw [e1, e2] at hfo
  refine ⟨d', x', q, by rw [hd']; exact Spec.PowerLoss.blank P i1, hx', s1, UInt32.ofNat (k0.owner * c'.numShards.toNat + j), ?_, ?_⟩
  · rw [e0]
    intro hc
    rw [hc, List.map_nil, List.map_eq_nil_iff] at hfo
    exact hval hfo
  · intro grow b fuel hb hfuel
    rw [e0, ← hfo]
    obtain ⟨r1, r2, r3⟩ := route_parts (n := c'.numShards.toNat) (by omega) (by omega) b q.n s2.qn
    have hlt : j < x'.shards.length := by rw [y2]; exact hjn
    have hs := List.getElem?_eq_getElem hlt
    have hrd := y3 _ _ hs
    have hk : b.toNat / c'.numShards.toNat % 65536 < 65536 := Nat.mod_lt _ (by decide)
    obtain ⟨q1, q2⟩ := hrd.back (b.toNat / c'.numShards.toNat % 65536) post 0 ⟨blank iix, List.replicate 65536 (0, 0), 0, hseti, by rw [hset (.pos j) nofun]; exact i2, hzero, List.length_replicate,
      by rw [List.getElem?_replicate, if_pos hk]⟩
    have hct := List.getElem?_eq_getElem (l := x'.shards[j].counts) (by rw [hrd.counts]; exact hk)
    obtain ⟨r, k1, k2, k3, _⟩ := Query.getLoop_unlim grow (x := x') (D := metaOf (documents h)) (bucketIds u c' (documents h) j k0.owner) fuel
      ⟨x'.shards[j].id, b.toNat / c'.numShards.toNat % 65536, 0, x'.shards[j].counts[b.toNat / c'.numShards.toNat % 65536]'(by rw [hrd.counts]; exact hk), Posts.new 0, x'.shards[j].file⟩ ⟨b, none⟩
      (by show PostsRep x'.shards[j].file (Posts.new 0) _; rw [← q1, hpost]; exact hposts)
      (by
        intro id hid
        have := g1.doc j k0.owner hjn ho id hid
        simp only [Index.docid2Doc] at this ⊢
        rw [hdmd, hfnm]; exact this)
      (Nat.lt_of_le_of_lt (idsWith_length _ _ _) hfuel)
    refine ⟨r, ?_, k2, ?_⟩
    · unfold Query.get
      rw [if_neg r1]
      simp only [r2, hb, ← hj, hs, ShardIndex.readStateFor, ShardIndex.readStateForBlotAt, r3, q2, hct, bind, Except.bind, Option.isSome_none]
      exact k1
    · rw [k3]; rfl

/-- **C98**, posting files: if a loss of power left only zeros in the posting file of a shard, the index opens, and `Get` of every blot of the shard that has a document
returns an error. -/
theorem C98_posts_partial (P : Nat) {h : Sessions} {d : Dir} (hd : History u Json.codec c h d) (hf : Fits u c (documents h)) {b1 : UInt32}
    (hb1 : found u c (documents h) b1.toNat ≠ []) :
    ∃ post, d (.pos (b1.toNat % c.numShards.toNat)) = some post ∧ PowerLoss P d (d.set (.pos (b1.toNat % c.numShards.toNat)) (blank post)) ∧
      ∃ x q, Index.open Json.codec srt (d.set (.pos (b1.toNat % c.numShards.toNat)) (blank post)) = .ok x ∧ x.startQuery = .ok q ∧
        ∀ grow fuel, Errs (Query.get grow x (fuel + 1) q ⟨b1, none⟩) := by
  have hn := hU.shards
  have hn' := hU.shardsSmall
  have hrep := History.rep hU hd hf
  obtain ⟨ps, bs, hp⟩ := hrep.parts hf
  obtain ⟨t, fs, o1, _⟩ := openIndex_parts hU srt hrep hf hp
  obtain ⟨j, hj⟩ : ∃ j, j = b1.toNat % c.numShards.toNat := ⟨_, rfl⟩
  have hjn : j < c.numShards.toNat := by rw [hj]; exact Nat.mod_lt _ (by omega)
  have hcl := hp.closed j hjn
  rw [← hj]
  obtain ⟨c', dmd, f, ns, c1, c2, c3, c4, c5, c6⟩ := (C97_open srt d).1.mp ⟨_, o1⟩
  have hcc : c' = c := by
    have := (openIndex_inv o1).1
    rw [c1] at this
    injection this
  subst hcc
  obtain ⟨d', hd'⟩ : ∃ d', d' = d.set (.pos j) (blank (render 0 (bs j))) := ⟨_, rfl⟩
  have hset : ∀ g, g ≠ .pos j → d' g = d g := by
    intro g hg; rw [hd']; simp only [Dir.set]; rw [if_neg hg]
  have hseti : d' (.pos j) = some (blank (render 0 (bs j))) := by rw [hd']; simp [Dir.set]
  have hcfg : Config.readFrom Json.codec d' = .ok c' := by
    rw [← c1]; unfold Config.readFrom Dir.read; rw [hset .cfg nofun]
  obtain ⟨x', hx'⟩ := (C97_open srt d').1.mpr ⟨c', dmd, f, ns, hcfg, by rw [hset .dmd nofun]; exact c2, by rw [hset .fnm nofun]; exact c3, c4, c5, by
    intro i hi
    obtain ⟨iix', post', es', k1, k2, k3, k4⟩ := c6 i hi
    by_cases hij : i = j
    · subst hij
      exact ⟨iix', _, es', by rw [hset (.iix i) nofun]; exact k1, hseti, k3, k4⟩
    · exact ⟨iix', post', es', by rw [hset (.iix i) nofun]; exact k1, by rw [hset (.pos i) (by intro e; injection e with e; exact hij e)]; exact k2, k3, k4⟩⟩
  have hcx : x'.config = c' := by
    have := (openIndex_inv hx').1
    rw [hcfg] at this; injection this with this; exact this.symm
  obtain ⟨q, s1, s2⟩ := C98_get_partial hsrt hx' (by rw [hcx]; omega) (by rw [hcx]; omega)
  refine ⟨_, hp.pos j hjn, Spec.PowerLoss.blank P (hp.pos j hjn), x', q, by rw [← hd']; exact hx', s1, fun grow fuel => ?_⟩
  -- where the list begins
  obtain ⟨e1, e2⟩ := postings_found (u := u) hU hf.ids b1
  have hk0 : b1.toNat / c'.numShards.toNat % 65536 < 65536 := Nat.mod_lt _ (by decide)
  have hk : b1.toNat / c'.numShards.toNat % 65536 < (ps j).length := by rw [hcl.len]; exact hk0
  have hh := head_some hcl (List.getElem?_eq_getElem hk) (by
    intro h0
    rw [hj] at h0
    rw [h0] at e2
    exact hb1 (List.length_eq_zero_iff.mp e2.symm))
  have hhd := (hcl.rep _ _ (List.getElem?_eq_getElem hk)).1.head
  rw [hhd] at hh
  have hge : (0 : Int) ≤ nextOff (b1.toNat / c'.numShards.toNat % 65536) 0 (bs j) := by
    rcases nextOff_ge (b1.toNat / c'.numShards.toNat % 65536) (bs j) 0 with g | g
    · exact absurd g hh
    · exact g
  have hlt := nextOff_lt (b1.toNat / c'.numShards.toNat % 65536) (bs j) 0
  have hll : ListAt d j (b1.toNat / c'.numShards.toNat % 65536) (render 0 (bs j)) (nextOff (b1.toNat / c'.numShards.toNat % 65536) 0 (bs j)) := by
    obtain ⟨_, _, y3⟩ := opened o1
    refine (y3 j _ (by rw [shardsOf, List.getElem?_map, List.getElem?_range hjn]; rfl)).list _ _ ?_
    rw [List.getElem?_map, List.getElem?_eq_getElem hk, Option.map_some, hhd]
  obtain ⟨iix, es, ct, l1, _, l3, l4, l5⟩ := hll
  refine s2 grow b1 fuel (blank (render 0 (bs j))) (nextOff (b1.toNat / c'.numShards.toNat % 65536) 0 (bs j)) ?_ hge ?_
  · rw [hcx, ← hj]
    exact ⟨iix, es, ct, by rw [hset (.iix j) nofun]; exact l1, hseti, l3, l4, l5⟩
  · unfold blank
    rw [List.getElem?_replicate, if_pos]
    rw [render_length]
    omega

end

/-- An index of two documents, of which a loss of power left: only zeros in the path table; or in the file of records; or in the heads of a shard; or in its posting file. -/
example : ∃ d : Dir, (∃ c, Config.readFrom Json.codec d = .ok c) ∧
    (∃ d' x q, PowerLoss 4096 d d' ∧ Index.open Json.codec mergeSorter d' = .ok x ∧ x.startQuery = .ok q ∧ ∀ grow fuel, Query.get grow x (fuel + 1) q ⟨1, none⟩ = .error .panic) ∧
    (∃ d' x q, PowerLoss 4096 d d' ∧ Index.open Json.codec mergeSorter d' = .ok x ∧ x.startQuery = .ok q ∧
      ∀ grow fuel, 2 < fuel → ∃ r, Query.get grow x fuel q ⟨1, none⟩ = .ok r ∧ r.vis = [⟨[47], 0, 0, none⟩, ⟨[47], 0, 0, none⟩]) ∧
    (∃ d' x q, PowerLoss 4096 d d' ∧ Index.open Json.codec mergeSorter d' = .ok x ∧ x.startQuery = .ok q ∧ ∀ grow fuel, Errs (Query.get grow x (fuel + 1) q ⟨1, none⟩)) := by
  obtain ⟨d, hd⟩ := History.exists (u := asciiUni) exCmd_usable [47] [⟨[116, 47, 112], 0, 22, some exText1⟩, ⟨[116, 47, 113], 0, 24, some exText2⟩] [] exCmd_fits
  change History asciiUni Json.codec exCmdConfig exCmdSessions d at hd
  have hb : (found asciiUni exCmdConfig (documents exCmdSessions) (1 : UInt32).toNat).length = 2 := by rw [exCmd_docs]; decide +kernel
  have hb' : found asciiUni exCmdConfig (documents exCmdSessions) (1 : UInt32).toNat ≠ [] := by
    intro h; rw [h] at hb; cases hb
  have hl : (documents exCmdSessions).length = 2 := by rw [exCmd_docs]; rfl
  obtain ⟨h1, _⟩ := C97_sessions exCmd_usable hd exCmd_fits
  obtain ⟨d1, x1, q1, a1, a2, a3, a4⟩ := C98_false_paths exCmd_usable mergeSorter_isSorter 4096 hd exCmd_fits
  obtain ⟨d2, x2, q2, b1, b2, b3, b4⟩ := C98_false_records exCmd_usable mergeSorter_isSorter 4096 hd exCmd_fits
  obtain ⟨post, _, c1, x3, q3, c2, c3, c4⟩ := C98_posts_partial exCmd_usable mergeSorter_isSorter 4096 hd exCmd_fits hb'
  refine ⟨d, ⟨_, h1⟩, ⟨d1, x1, q1, a1, a2, a3, a4 1 hb'⟩, ⟨d2, x2, q2, b1, b2, b3, fun grow fuel hf => ?_⟩, ⟨_, x3, q3, c1, c2, c3, c4⟩⟩
  obtain ⟨r, r1, _, r3⟩ := b4 grow 1 fuel (by rw [hl]; exact hf)
  refine ⟨r, r1, ?_⟩
  rw [r3, List.map_const', hb]
  rfl

end Dupi.Props
