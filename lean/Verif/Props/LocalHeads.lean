import Verif.Proof.LocalHeads
import Verif.Props.Local

/-! C113: damage to a file of heads is local. -/

namespace Dupi.Props
open Spec

section
variable {u : Uni} {J : CfgCodec} {srt : Sorter} {c : Config} (hU : Usable J c) (hsrt : IsSorter srt)
include hU hsrt

/-- **C113.**  Whatever happens to the files of heads and the posting files of an index made by sessions, opening it gives an error, or it opens, and `Get` of every blot
whose list still begins where it began and still has its bytes returns exactly what it returned before. -/
theorem C113_local {h : Sessions} {d : Dir} (hd : History u J c h d) (hf : Fits u c (documents h)) :
    ∃ own : Nat → Nat → Option Nat,
      (∀ j f, j < c.numShards.toNat → d (.pos j) = some f → ∀ i, i < f.length → own j i ≠ none) ∧
      (∀ j k f, j < c.numShards.toNat → k < 65536 → d (.pos j) = some f →
        (List.range f.length).countP (fun i => own j i = some k) ≤ 14 * (found u c (documents h) (k * c.numShards.toNat + j)).length) ∧
      ∀ d' : Dir, (∀ g, (∀ j, g ≠ .pos j ∧ g ≠ .iix j) → d' g = d g) →
        (∃ e, Index.open J srt d' = fail e) ∨ ∃ x q, Index.open J srt d' = .ok x ∧ x.startQuery = .ok q ∧
          ∀ grow (b : UInt32) fuel, (documents h).length < fuel →
            (∀ p, HeadAt d (b.toNat % c.numShards.toNat) (b.toNat / c.numShards.toNat % 65536) p →
              HeadAt d' (b.toNat % c.numShards.toNat) (b.toNat / c.numShards.toNat % 65536) p) →
            (∀ f f' i, d (.pos (b.toNat % c.numShards.toNat)) = some f → d' (.pos (b.toNat % c.numShards.toNat)) = some f' →
              own (b.toNat % c.numShards.toNat) i = some (b.toNat / c.numShards.toNat % 65536) → f'[i]? = f[i]?) →
            ∃ r, Query.get grow x fuel q ⟨b, none⟩ = .ok r ∧ r.blot = b ∧ r.vis = (found u c (documents h) b.toNat).map Document.shown := by
  have hn := hU.shards
  have hn' := hU.shardsSmall
  have hids := hf.ids
  have hrep := History.rep hU hd hf
  obtain ⟨ps, bs, hp⟩ := hrep.parts hf
  obtain ⟨w1, w2⟩ := owners hU hd hf hp
  refine ⟨fun j => ownerAt (bs j), w1, w2, ?_⟩
  intro d' hd'
  obtain ⟨t, fs, o1, o2⟩ := openIndex_parts hU srt hrep hf hp
  obtain ⟨y, p1, p2, p3, _⟩ := openIndex_rep hU srt hrep hf (documents_rooted h)
  rw [o1] at p1; injection p1 with p1
  obtain ⟨m1, m2, ⟨fb, m3, m3'⟩, m4⟩ := openIndex_inv o1
  obtain ⟨_, n2, n3⟩ := opened o1
  have c1 : Config.readFrom J d' = .ok c := by
    have : Config.readFrom J d = .ok c := m1
    rw [← this]; unfold Config.readFrom Dir.read; rw [hd' .cfg (fun j => ⟨nofun, nofun⟩)]
  have hfn : d' .fnm = some fb := by rw [hd' .fnm (fun j => ⟨nofun, nofun⟩), m3]
  have hdm : d' .dmd = d .dmd := hd' .dmd (fun j => ⟨nofun, nofun⟩)
  rcases openIndex_tame (srt := srt) c1 (by omega) (fun b hb => by rw [hfn] at hb; injection hb with hb; rw [← hb]; exact .inl ⟨_, m3'⟩) with ⟨x', x1⟩ | ⟨e, he⟩
  · right
    obtain ⟨k1, k2, ⟨fb', k3, k3'⟩, k4⟩ := openIndex_inv x1
    rw [c1] at k1; injection k1 with k1
    rw [hdm, m2] at k2; injection k2 with k2
    rw [hfn] at k3; injection k3 with k3; subst k3
    rw [m3'] at k3'; injection k3' with k3'
    obtain ⟨_, y2, y3⟩ := opened x1
    rw [← k1] at y2
    obtain ⟨q, s1, s2⟩ := startQuery_any hsrt y2 (by omega) (by omega) y3
    refine ⟨x', q, x1, s1, fun grow b fuel hfuel hh hb => ?_⟩
    obtain ⟨r1, r2, r3⟩ := route_parts (n := c.numShards.toNat) (by omega) (by omega) b q.n s2.qn
    obtain ⟨j, hj⟩ : ∃ j, j = b.toNat % c.numShards.toNat := ⟨_, rfl⟩
    obtain ⟨k, hk⟩ : ∃ k, k = b.toNat / c.numShards.toNat % 65536 := ⟨_, rfl⟩
    have hjn : j < c.numShards.toNat := by rw [hj]; exact Nat.mod_lt _ (by omega)
    have hkn : k < 65536 := by rw [hk]; exact Nat.mod_lt _ (by decide)
    rw [← hj, ← hk] at hb hh
    obtain ⟨p, hpk⟩ : ∃ p, (ps j)[k]? = some p := ⟨_, List.getElem?_eq_getElem (by rw [(hp.closed j hjn).len]; exact hkn)⟩
    -- where the list begins
    have hs0 : (shardsOf srt c.numShards.toNat ps bs)[j]? = some ⟨0, (ps j).map Poster.head, (ps j).map Poster.total, srt ((ps j).map Poster.total), render 0 (bs j)⟩ := by
      rw [shardsOf, List.getElem?_map, List.getElem?_range hjn]; rfl
    obtain ⟨iix, es, ct, l1, _, l3, l4, l5⟩ := (n3 j _ hs0).list k p.head (by simp only [List.getElem?_map, hpk]; rfl)
    obtain ⟨iix', es', ct', g1, g2, g3, g4⟩ := hh p.head ⟨iix, es, ct, l1, l3, l4, l5⟩
    obtain ⟨s', hs'⟩ : ∃ s', x'.shards[j]? = some s' := ⟨_, List.getElem?_eq_getElem (by rw [y2]; exact hjn)⟩
    have hsr := y3 j s' hs'
    obtain ⟨f', hpos⟩ : ∃ f', d' (.pos j) = some f' := by
      obtain ⟨h0, hh0⟩ : ∃ h0, s'.heads[k]? = some h0 := ⟨_, List.getElem?_eq_getElem (by rw [hsr.heads]; exact hkn)⟩
      obtain ⟨_, _, _, _, z, _⟩ := hsr.list k h0 hh0
      exact ⟨_, z⟩
    obtain ⟨e1, e2⟩ := hsr.back k f' p.head ⟨iix', es', ct', g1, hpos, g2, g3, g4⟩
    obtain ⟨ct2, hct⟩ : ∃ ct2, s'.counts[k]? = some ct2 := ⟨_, List.getElem?_eq_getElem (by rw [hsr.counts]; exact hkn)⟩
    have hpr : PostsRep f' (Posts.new p.head) (postings (shardPosts u c j 1 (documents h)) k) :=
      (hp.closed j hjn).read_swap (hp.small j hjn) hpk (fun i hi => hb _ _ i (hp.pos j hjn) hpos hi)
    obtain ⟨e3, _⟩ := postings_found (u := u) hU hids b
    rw [← hj, ← hk] at e3
    rw [e3] at hpr
    obtain ⟨r, v1, v2, v3, _⟩ := Query.getLoop_unlim grow (x := x') (D := metaOf (documents h)) (bucketIds u c (documents h) j k) fuel
      ⟨s'.id, k, 0, ct2, Posts.new p.head, s'.file⟩ ⟨b, none⟩ (by rw [← e1]; exact hpr)
      (by
        intro id hid
        have := p3.doc j k hjn hkn id hid
        rw [← p1] at this
        simp only [Index.docid2Doc] at this ⊢
        rw [← k2, ← k3']; exact this)
      (Nat.lt_of_le_of_lt (idsWith_length _ _ _) hfuel)
    refine ⟨r, ?_, v2, ?_⟩
    · unfold Query.get
      rw [if_neg r1]
      simp only [r2, ← hj, hs', ShardIndex.readStateFor, ShardIndex.readStateForBlotAt, r3, ← hk, e2, hct, bind, Except.bind, Option.isSome_none]
      exact v1
    · rw [v3, hj, hk, ← bucketIds_found u c _ hids]; rfl
  · exact .inl ⟨e, he⟩

/-- **C113**, bytes.  The bytes of the files of heads belong to the lists, and of those of a list at most ten say where it begins, at most five how many documents it has, and the
other four are not needed for reading.  If no byte but of those four has lost or got a top bit, opening the index gives an error, or it opens, and `Get` of every
blot whose list still has the bytes that say where it begins returns exactly what it returned before.  If only bytes not needed have changed, the index opened is the same. -/
theorem C113_bytes {h : Sessions} {d : Dir} (hd : History u J c h d) (hf : Fits u c (documents h)) :
    ∃ part : Nat → Nat → Option (Nat × Part),
      (∀ j f, j < c.numShards.toNat → d (.iix j) = some f → ∀ i, i < f.length → part j i ≠ none) ∧
      (∀ j k f, j < c.numShards.toNat → d (.iix j) = some f → (List.range f.length).countP (fun i => part j i = some (k, .head)) ≤ 10 ∧
        (List.range f.length).countP (fun i => part j i = some (k, .count)) ≤ 5 ∧ (List.range f.length).countP (fun i => part j i = some (k, .last)) ≤ 4) ∧
      ∀ (d' : Dir) (file : Nat → Bytes), (∀ g, (∀ j, g ≠ .iix j) → d' g = d g) → (∀ j, j < c.numShards.toNat → d' (.iix j) = some (file j)) →
        (∀ j f, j < c.numShards.toNat → d (.iix j) = some f → (file j).length = f.length ∧
          ∀ (i k : Nat) (w : Part) x y, part j i = some (k, w) → w ≠ .last → (file j)[i]? = some x → f[i]? = some y → SameTop x y) →
        ((∃ e, Index.open J srt d' = fail e) ∨ ∃ x q, Index.open J srt d' = .ok x ∧ x.startQuery = .ok q ∧
          ∀ grow (b : UInt32) fuel, (documents h).length < fuel →
            (∀ f i, d (.iix (b.toNat % c.numShards.toNat)) = some f →
              part (b.toNat % c.numShards.toNat) i = some (b.toNat / c.numShards.toNat % 65536, .head) → (file (b.toNat % c.numShards.toNat))[i]? = f[i]?) →
            ∃ r, Query.get grow x fuel q ⟨b, none⟩ = .ok r ∧ r.blot = b ∧ r.vis = (found u c (documents h) b.toNat).map Document.shown) ∧
        ((∀ (j i k : Nat) (w : Part) f, j < c.numShards.toNat → d (.iix j) = some f → part j i = some (k, w) → w ≠ .last → (file j)[i]? = f[i]?) →
          Index.open J srt d' = Index.open J srt d) := by
  have hn := hU.shards
  have hrep := History.rep hU hd hf
  obtain ⟨ps, bs, hp⟩ := hrep.parts hf
  have hbnd : ∀ j, j < c.numShards.toNat → ∀ p ∈ ps j, -(2 ^ 63) ≤ p.head ∧ p.head < 2 ^ 63 := by
    intro j hj p hm
    obtain ⟨o, ho⟩ := List.getElem?_of_mem hm
    exact ((hp.closed j hj).rep o p ho).1.headBound (hp.small j hj)
  refine ⟨fun j => partAt (ps j) 0, ?_, ?_, ?_⟩
  · intro j f hj hfj i hi
    rw [hp.iix j hj] at hfj; injection hfj with hfj; subst hfj
    exact partAt_some (ps j) 0 i hi
  · intro j k f hj hfj
    rw [hp.iix j hj] at hfj; injection hfj with hfj; subst hfj
    exact partAt_count (ps j) (hbnd j hj) k 0
  · intro d' file hd' hiix hfile
    have key := fun j (hj : j < c.numShards.toNat) => readIix_parts (ps j) 0 (file j) (hfile j _ hj (hp.iix j hj)).1 (hbnd j hj)
      (fun i k w x y hw1 hw2 hx hy => (hfile j _ hj (hp.iix j hj)).2 i k w x y hw1 hw2 hx hy)
    constructor
    · obtain ⟨own, _, _, g⟩ := C113_local hU hsrt hd hf
      rcases g d' (fun f hfn => hd' f (fun j => (hfn j).2)) with g | ⟨x, q, g1, g2, g3⟩
      · exact .inl g
      · refine .inr ⟨x, q, g1, g2, fun grow b fuel hfuel hb => g3 grow b fuel hfuel ?_ ?_⟩
        · obtain ⟨j, hj⟩ : ∃ j, j = b.toNat % c.numShards.toNat := ⟨_, rfl⟩
          obtain ⟨k, hk⟩ : ∃ k, k = b.toNat / c.numShards.toNat % 65536 := ⟨_, rfl⟩
          have hjn : j < c.numShards.toNat := by rw [hj]; exact Nat.mod_lt _ (by omega)
          have hkn : k < 65536 := by rw [hk]; exact Nat.mod_lt _ (by decide)
          rw [← hj, ← hk] at hb ⊢
          intro p0 hp0
          have hl := (hp.closed j hjn).len
          obtain ⟨k1, k2, k3, k4⟩ := openIndex_inv g1
          have hcfg : x.config = c := by
            have c1 : Config.readFrom J d' = .ok c := by
              obtain ⟨_, _, o1, _⟩ := openIndex_parts hU srt hrep hf hp
              have : Config.readFrom J d = .ok c := (openIndex_inv o1).1
              rw [← this]; unfold Config.readFrom Dir.read; rw [hd' .cfg (fun j => nofun)]
            rw [c1] at k1; injection k1 with k1; exact k1.symm
          obtain ⟨iix', post', es', z1, z2, z3, z4⟩ := (openShards_exact srt d' _ 0).mp ⟨_, k4⟩ j (by rw [hcfg]; exact hjn)
          rw [Nat.zero_add, hiix j hjn] at z1; injection z1 with z1; subst z1
          obtain ⟨es2, y1, y2⟩ := (readIix_exact 65536 (file j) es').mpr ⟨z3, z4⟩
          have key' := (key j hjn).1
          rw [hl] at key'
          rcases key' with ⟨e, he⟩ | ⟨es3, e1, e2, e3⟩
          · rw [y1] at he; cases he
          · rw [y1] at e1; injection e1 with e1; subst e1
            -- the head in the old file
            obtain ⟨p, hpk⟩ : ∃ p, (ps j)[k]? = some p := ⟨_, List.getElem?_eq_getElem (by rw [hl]; exact hkn)⟩
            have hp0' : p0 = p.head := by
              obtain ⟨f0, es0, c0, a1, a2, a3, a4⟩ := hp0
              rw [hp.iix j hjn] at a1; injection a1 with a1; subst a1
              obtain ⟨es4, b1, b2⟩ := (readIix_exact 65536 _ es0).mpr ⟨a2, a3⟩
              have b3 := index_readIix_spec (bs j) (hp.small j hjn) _ (ps j) 0 (by simpa using (hp.closed j hjn).rep)
              rw [hl, b1] at b3
              injection b3 with b3
              subst b3
              rw [← b2, List.getElem?_map, List.getElem?_map, hpk] at a4
              simp only [Option.map_some, Option.some.injEq, entrySays, Prod.mk.injEq] at a4
              exact a4.1.symm
            have := e3 k p hpk (fun i hi => hb _ i (hp.iix j hjn) (by rw [Nat.zero_add] at hi; exact hi))
            cases hes : es2[k]? with
            | none => rw [hes] at this; cases this
            | some v =>
              rw [hes] at this
              simp only [Option.map_some, Option.some.injEq] at this
              refine ⟨file j, es', v.2.toNat, hiix j hjn, z3, z4, ?_⟩
              rw [← y2, List.getElem?_map, hes, hp0', ← this]
              rfl
        · intro f f' i h1 h2 _
          rw [hd' (.pos _) (fun j => nofun), h1] at h2
          injection h2 with h2
          rw [h2]
    · intro hall
      have hsh : ∀ (n i : Nat), i + n ≤ c.numShards.toNat → Index.openShards srt d' n i = Index.openShards srt d n i := by
        intro n
        induction n with
        | zero => intro i _; rfl
        | succ n ih =>
          intro i hi
          have e1 := (key i (by omega)).2 (fun p k w hw1 hw2 => hall i p k w _ (by omega) (hp.iix i (by omega)) hw1 hw2)
          have e2 := index_readIix_spec (bs i) (hp.small i (by omega)) _ (ps i) 0 (by simpa using (hp.closed i (by omega)).rep)
          have e3 : ShardIndex.readIix ShardIndexer.nBlots (file i) = ShardIndex.readIix ShardIndexer.nBlots ((ps i).flatMap ShardIndexer.iixEntry) := by
            rw [(hp.closed i (by omega)).len] at e1 e2
            exact e1.trans e2.symm
          simp only [Index.openShards, Dir.read, hiix i (by omega), hp.iix i (by omega), hd' (.pos i) (fun j => nofun), bind, Except.bind, e3, ih (i + 1) (by omega)]
      unfold Index.open Config.readFrom Dir.read
      rw [hd' .cfg (fun j => nofun), hd' .dmd (fun j => nofun), hd' .fnm (fun j => nofun), hrep.cfg]
      simp only [bind, Except.bind, hU.codec, hU.check, pure, Except.pure]
      rw [hsh _ 0 (by omega)]

/-- **C113**, one byte of a file of heads, the top bit of which is as it was: opening gives an error, or there is at most one bucket of the shard whose blots are answered otherwise. -/
theorem C113_byte {h : Sessions} {d : Dir} (hd : History u J c h d) (hf : Fits u c (documents h)) {j i : Nat} {v w : UInt8}
    {f : Bytes} (hfj : d (.iix j) = some f) (hj : j < c.numShards.toNat) (hw : f[i]? = some w) (hv : SameTop v w) :
    (∃ e, Index.open J srt (d.set (.iix j) (f.set i v)) = fail e) ∨ ∃ x q, Index.open J srt (d.set (.iix j) (f.set i v)) = .ok x ∧ x.startQuery = .ok q ∧
      ∃ k0, ∀ grow (b : UInt32) fuel, (documents h).length < fuel → ¬ (b.toNat % c.numShards.toNat = j ∧ b.toNat / c.numShards.toNat % 65536 = k0) →
        ∃ r, Query.get grow x fuel q ⟨b, none⟩ = .ok r ∧ r.blot = b ∧ r.vis = (found u c (documents h) b.toNat).map Document.shown := by
  have hn := hU.shards
  obtain ⟨part, _, _, h3⟩ := C113_bytes hU hsrt hd hf
  have hset : ∀ g, g ≠ .iix j → (d.set (.iix j) (f.set i v)) g = d g := by
    intro g hg; simp only [Dir.set]; rw [if_neg hg]
  have hseti : (d.set (.iix j) (f.set i v)) (.iix j) = some (f.set i v) := by simp [Dir.set]
  obtain ⟨ps, bs, hp⟩ := (History.rep hU hd hf).parts hf
  obtain ⟨g1, _⟩ := h3 (d.set (.iix j) (f.set i v)) (fun j' => if j' = j then f.set i v else (d (.iix j')).getD []) (fun g hg => hset g (hg j)) (by
    intro j' hj'
    by_cases e : j' = j
    · rw [if_pos e, e, hseti]
    · rw [if_neg e, hset (.iix j') (by intro e'; injection e' with e'; exact e e'), hp.iix j' hj']; rfl) (by
    intro j' f' hj' hf'
    by_cases e : j' = j
    · subst e
      rw [hfj] at hf'; injection hf' with hf'; subst hf'
      rw [if_pos rfl]
      refine ⟨by simp, fun i' k w' x y _ _ hx hy => ?_⟩
      by_cases ei : i = i'
      · subst ei
        rw [hw] at hy; injection hy with hy
        rw [List.getElem?_set_self (List.getElem?_eq_some_iff.mp hw).1] at hx
        injection hx with hx
        subst hx; subst hy
        exact hv
      · rw [List.getElem?_set_ne ei, hy] at hx
        injection hx with hx
        subst hx
        exact Iff.rfl
    · rw [if_neg e, hf']
      refine ⟨rfl, fun i' k w' x y _ _ hx hy => ?_⟩
      rw [Option.getD_some, hy] at hx
      injection hx with hx
      subst hx
      exact Iff.rfl)
  rcases g1 with g1 | ⟨x, q, g1, g2, g3⟩
  · exact .inl g1
  · refine .inr ⟨x, q, g1, g2, ((part j i).map Prod.fst).getD 0, fun grow b fuel hfuel hb => g3 grow b fuel hfuel ?_⟩
    intro f1 i' hf1 hpart
    by_cases e : b.toNat % c.numShards.toNat = j
    · rw [e] at hf1 hpart
      rw [hfj] at hf1; injection hf1 with hf1
      subst hf1
      rw [if_pos e]
      have hne : i ≠ i' := by
        intro e2
        subst e2
        exact hb ⟨e, by rw [hpart]; rfl⟩
      rw [List.getElem?_set_ne hne]
    · rw [if_neg e, hf1]; rfl

end

/-! ## Non-vacuity -/

set_option maxRecDepth 8000 in
/-- the example, with a bit of the entry of its first list changed -/
example : ∃ d : Dir, History asciiUni ⟨fun _ => [], fun _ => .ok exQConfig⟩ exQConfig exHistory d ∧ ∃ f w, d (.iix 0) = some f ∧ f[0]? = some w ∧ SameTop (w ^^^ 1) w ∧ w ^^^ 1 ≠ w := by
  obtain ⟨d, hd⟩ := History.exists (u := asciiUni) exUsable [47] _ _ exFits
  obtain ⟨ps, bs, hp⟩ := (History.rep exUsable hd exFits).parts exFits
  have h0 := hp.iix 0 (by decide)
  obtain ⟨p, hp0⟩ : ∃ p, (ps 0)[0]? = some p := ⟨_, List.getElem?_eq_getElem (by rw [(hp.closed 0 (by decide)).len]; decide)⟩
  have hne : 0 < ((ps 0).flatMap ShardIndexer.iixEntry).length := by
    cases hps : ps 0 with
    | nil => rw [hps] at hp0; cases hp0
    | cons p l => rw [entry_bytes]; have := putUvarint_length_pos (zigzag p.head); simp only [List.length_append, putVarint]; omega
  refine ⟨d, hd, _, _, h0, List.getElem?_eq_getElem hne, ?_, ?_⟩
  · generalize ((ps 0).flatMap ShardIndexer.iixEntry)[0] = w
    exact (by decide : ∀ w : Fin 256, SameTop (UInt8.ofFin w ^^^ 1) (UInt8.ofFin w)) w.toFin
  · generalize ((ps 0).flatMap ShardIndexer.iixEntry)[0] = w
    exact (by decide : ∀ w : Fin 256, UInt8.ofFin w ^^^ 1 ≠ UInt8.ofFin w) w.toFin

end Dupi.Props
