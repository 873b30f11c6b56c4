import Verif.Proof.Local
import Verif.Props.PowerLoss

/-! C111: damage to a posting file is local. -/

namespace Dupi.Props
open Spec

section
variable {u : Uni} {J : CfgCodec} {srt : Sorter} {c : Config} (hU : Usable J c) (hsrt : IsSorter srt)
include hU hsrt

omit hsrt in
theorem owners {h : Sessions} {d : Dir} (_ : History u J c h d) (hf : Fits u c (documents h)) {ps : Nat → List Poster} {bs : Nat → List Blk}
    (hp : Parts u c d (documents h) ps bs) :
    (∀ j f, j < c.numShards.toNat → d (.pos j) = some f → ∀ i, i < f.length → ownerAt (bs j) i ≠ none) ∧
    (∀ j k f, j < c.numShards.toNat → k < 65536 → d (.pos j) = some f →
      (List.range f.length).countP (fun i => ownerAt (bs j) i = some k) ≤ 14 * (found u c (documents h) (k * c.numShards.toNat + j)).length) := by
  have hn := hU.shards
  have hids := hf.ids
  refine ⟨?_, ?_⟩
  · intro j f hj hfj i hi
    rw [hp.pos j hj] at hfj
    injection hfj with hfj
    rw [← hfj, render_length] at hi
    clear hfj
    generalize bs j = l at hi
    induction l generalizing i with
    | nil => simp [sizes] at hi
    | cons b l ih =>
      rw [sizes_cons] at hi
      rw [ownerAt]
      by_cases hb : i < b.size
      · rw [if_pos hb]; nofun
      · rw [if_neg hb]; exact ih _ (by omega)
  · intro j k f hj hk hfj
    rw [hp.pos j hj] at hfj
    injection hfj with hfj
    subst hfj
    rw [render_length]
    have h1 := ownerAt_count k (bs j) (hp.closed j hj).wf
    obtain ⟨p, hpk⟩ : ∃ p, (ps j)[k]? = some p := ⟨_, List.getElem?_eq_getElem (by rw [(hp.closed j hj).len]; exact hk)⟩
    obtain ⟨hr, hpe⟩ := (hp.closed j hj).rep k p hpk
    obtain ⟨ds, k1, k2⟩ := hr.pend
    have hds : ds = [] := by
      false_or_by_contra
      rename_i hne
      exact encDeltas_ne hne (by rw [← k1]; exact hpe)
    rw [hds, List.append_nil] at k2
    have h2 : (flushed k (bs j)).length = (postings (shardPosts u c j 1 (documents h)) k).length := by
      have := congrArg List.length (congrArg (runSum 0) k2)
      rwa [runSum_deltasFrom, runSum_length] at this
    have h3 := bucketIds_length_found u c (documents h) hids (k * c.numShards.toNat + j)
    rw [Nat.mul_add_mod_self_right, Nat.mod_eq_of_lt hj, Nat.mul_comm, Nat.mul_add_div (by omega), Nat.div_eq_of_lt hj, Nat.add_zero,
      Nat.mod_eq_of_lt hk, Nat.mul_comm] at h3
    rw [postings_shardPosts u c j k hj hk _ (by omega)] at h2
    rw [h2] at h1
    rw [← h3]
    exact h1

/-- **C111.**  The bytes of the posting files of an index made by sessions can be divided among the buckets, at most 14 bytes for each document of a bucket,
so that whatever happens to the posting files, the index opens, and `Get` of every blot whose bucket still has its bytes returns exactly what it
returned before. -/
theorem C111_local {h : Sessions} {d : Dir} (hd : History u J c h d) (hf : Fits u c (documents h)) :
    ∃ own : Nat → Nat → Option Nat,
      (∀ j f, j < c.numShards.toNat → d (.pos j) = some f → ∀ i, i < f.length → own j i ≠ none) ∧
      (∀ j k f, j < c.numShards.toNat → k < 65536 → d (.pos j) = some f →
        (List.range f.length).countP (fun i => own j i = some k) ≤ 14 * (found u c (documents h) (k * c.numShards.toNat + j)).length) ∧
      ∀ d' : Dir, (∀ g, (∀ j, g ≠ .pos j) → d' g = d g) → (∀ j, j < c.numShards.toNat → d' (.pos j) ≠ none) →
        ∃ x q, Index.open J srt d' = .ok x ∧ x.startQuery = .ok q ∧
          ∀ grow (b : UInt32) fuel, (documents h).length < fuel →
            (∀ f f' i, d (.pos (b.toNat % c.numShards.toNat)) = some f → d' (.pos (b.toNat % c.numShards.toNat)) = some f' →
              own (b.toNat % c.numShards.toNat) i = some (b.toNat / c.numShards.toNat % 65536) → f'[i]? = f[i]?) →
            ∃ r, Query.get grow x fuel q ⟨b, none⟩ = .ok r ∧ r.blot = b ∧ r.vis = (found u c (documents h) b.toNat).map Document.shown := by
  have hn := hU.shards
  have hn' := hU.shardsSmall
  have hids := hf.ids
  have hrep := History.rep hU hd hf
  obtain ⟨ps, bs, hp⟩ := hrep.parts hf
  obtain ⟨w1, w2⟩ := owners hU hd hf hp
  refine ⟨fun j => ownerAt (bs j), w1, w2, ?_⟩
  · intro d' hd' hpos
    obtain ⟨t, fs, o1, o2⟩ := openIndex_parts hU srt hrep hf hp
    obtain ⟨y, p1, p2, p3, _⟩ := openIndex_rep hU srt hrep hf (documents_rooted h)
    rw [o1] at p1; injection p1 with p1
    obtain ⟨x', x1, x2, x3, x4, x5, x6⟩ := openIndex_swap hd' o1 hpos
    obtain ⟨_, y2, y3⟩ := opened x1
    rw [x2] at y2
    simp only at x2 x3 x4 x5 x6 y2
    obtain ⟨q, s1, s2⟩ := startQuery_any hsrt y2 (by omega) (by omega) y3
    refine ⟨x', q, x1, s1, fun grow b fuel hfuel hb => ?_⟩
    obtain ⟨r1, r2, r3⟩ := route_parts (n := c.numShards.toNat) (by omega) (by omega) b q.n s2.qn
    obtain ⟨j, hj⟩ : ∃ j, j = b.toNat % c.numShards.toNat := ⟨_, rfl⟩
    obtain ⟨k, hk⟩ : ∃ k, k = b.toNat / c.numShards.toNat % 65536 := ⟨_, rfl⟩
    have hjn : j < c.numShards.toNat := by rw [hj]; exact Nat.mod_lt _ (by omega)
    have hkn : k < 65536 := by rw [hk]; exact Nat.mod_lt _ (by decide)
    rw [← hj, ← hk] at hb
    obtain ⟨f', a1, a2⟩ := x6 j _ (by rw [shardsOf, List.getElem?_map, List.getElem?_range hjn]; rfl)
    obtain ⟨p, hpk⟩ : ∃ p, (ps j)[k]? = some p := ⟨_, List.getElem?_eq_getElem (by rw [(hp.closed j hjn).len]; exact hkn)⟩
    have hpr : PostsRep f' (Posts.new p.head) (postings (shardPosts u c j 1 (documents h)) k) :=
      (hp.closed j hjn).read_swap (hp.small j hjn) hpk (fun i hi => hb _ _ i (hp.pos j hjn) a1 hi)
    obtain ⟨e1, _⟩ := postings_found (u := u) hU hids b
    rw [← hj, ← hk] at e1
    rw [e1] at hpr
    obtain ⟨r, k1, k2, k3, _⟩ := Query.getLoop_unlim grow (x := x') (D := metaOf (documents h)) (bucketIds u c (documents h) j k) fuel
      ⟨0, k, 0, p.total, Posts.new p.head, f'⟩ ⟨b, none⟩ hpr
      (by
        intro id hid
        have := p3.doc j k hjn hkn id hid
        rw [← p1] at this
        simp only [Index.docid2Doc] at this ⊢
        rw [x3, x4]; exact this)
      (Nat.lt_of_le_of_lt (idsWith_length _ _ _) hfuel)
    refine ⟨r, ?_, k2, ?_⟩
    · unfold Query.get
      rw [if_neg r1]
      simp only [r2, ← hj, a2, ShardIndex.readStateFor, ShardIndex.readStateForBlotAt, r3, ← hk, List.getElem?_map, hpk, Option.map_some, bind, Except.bind, Option.isSome_none]
      exact k1
    · rw [k3, hj, hk, ← bucketIds_found u c _ hids]; rfl

/-- **C111**, one byte: whichever byte of a posting file changes, and to what, there is at most one bucket of the shard whose blots are answered otherwise. -/
theorem C111_byte {h : Sessions} {d : Dir} (hd : History u J c h d) (hf : Fits u c (documents h)) {j : Nat} (i : Nat) (v : UInt8)
    {f : Bytes} (hfj : d (.pos j) = some f) :
    ∃ x q, Index.open J srt (d.set (.pos j) (f.set i v)) = .ok x ∧ x.startQuery = .ok q ∧
      ∃ k0, ∀ grow (b : UInt32) fuel, (documents h).length < fuel → ¬ (b.toNat % c.numShards.toNat = j ∧ b.toNat / c.numShards.toNat % 65536 = k0) →
        ∃ r, Query.get grow x fuel q ⟨b, none⟩ = .ok r ∧ r.blot = b ∧ r.vis = (found u c (documents h) b.toNat).map Document.shown := by
  obtain ⟨own, _, _, h3⟩ := C111_local hU hsrt hd hf
  have hset : ∀ g, g ≠ .pos j → (d.set (.pos j) (f.set i v)) g = d g := by
    intro g hg; simp only [Dir.set]; rw [if_neg hg]
  have hseti : (d.set (.pos j) (f.set i v)) (.pos j) = some (f.set i v) := by simp [Dir.set]
  obtain ⟨ps, bs, hp⟩ := (History.rep hU hd hf).parts hf
  obtain ⟨x, q, g1, g2, g3⟩ := h3 (d.set (.pos j) (f.set i v)) (fun g hg => hset g (hg j)) (by
    intro j' hj'
    by_cases e : j' = j
    · rw [e, hseti]; nofun
    · rw [hset (.pos j') (by intro e'; injection e' with e'; exact e e'), hp.pos j' hj']; nofun)
  refine ⟨x, q, g1, g2, (own j i).getD 0, fun grow b fuel hfuel hb => g3 grow b fuel hfuel ?_⟩
  intro f1 f2 i' hf1 hf2 hown
  by_cases e : b.toNat % c.numShards.toNat = j
  · rw [e] at hf1 hf2 hown
    rw [hfj] at hf1; injection hf1 with hf1
    rw [hseti] at hf2; injection hf2 with hf2
    subst hf1; subst hf2
    have hne : i ≠ i' := by
      intro e2
      subst e2
      exact hb ⟨e, by rw [hown]; rfl⟩
    rw [List.getElem?_set_ne hne]
  · rw [hset _ (by intro e'; injection e' with e'; exact e e')] at hf2
    rw [hf1] at hf2; injection hf2 with hf2
    rw [hf2]

end

/-! ## Non-vacuity -/

/-- the example opens whichever byte of its first posting file changes -/
example : ∃ d : Dir, History asciiUni ⟨fun _ => [], fun _ => .ok exQConfig⟩ exQConfig exHistory d ∧ ∃ f, d (.pos 0) = some f ∧ ∀ i v,
    ∃ x q, Index.open ⟨fun _ => [], fun _ => .ok exQConfig⟩ mergeSorter (d.set (.pos 0) (f.set i v)) = .ok x ∧ x.startQuery = .ok q := by
  obtain ⟨d, hd⟩ := History.exists (u := asciiUni) exUsable [47] _ _ exFits
  obtain ⟨ps, bs, hp⟩ := (History.rep exUsable hd exFits).parts exFits
  have h0 := hp.pos 0 (by decide)
  refine ⟨d, hd, _, h0, fun i v => ?_⟩
  obtain ⟨x, q, h1, h2, _⟩ := C111_byte exUsable mergeSorter_isSorter hd exFits i v h0
  exact ⟨x, q, h1, h2⟩

end Dupi.Props
