import Verif.Proof.TwinIndex
import Verif.Props.Query
import Verif.Spec.Twin
import Verif.Proof.PathSpec
/-! # Queries on the index two indexers leave -/

namespace Dupi
open Spec

/-- a shard of which `tot` are the totals and `vals` what can be read -/
structure TIndexRep (srt : Sorter) (x : ShardIndex) (tot vals : Nat → List UInt32) : Prop where
  lenH : x.heads.length = 65536
  lenC : x.counts.length = 65536
  counts : ∀ b, b < 65536 → (x.counts.getD b 0).toNat = (tot b).length
  perm : x.perm = srt x.counts
  posts : ∀ (b : Nat) h, x.heads[b]? = some h → Delivers x.file (Posts.new h) (vals b) true

theorem shardInit_twin (srt : Sorter) {ps : List Poster} {f : Bytes} {tot vals : Nat → List UInt32} (hn : ps.length = 65536)
    (hb : ∀ p ∈ ps, -(2 ^ 63) ≤ p.head ∧ p.head < 2 ^ 63)
    (h : ∀ (o : Nat) (p : Poster), ps[o]? = some p → p.total.toNat = (tot o).length ∧ Delivers f (Posts.new p.head) (vals o) true) :
    ∃ x, ShardIndex.init srt 65536 ⟨f, ps.flatMap ShardIndexer.iixEntry⟩ = .ok x ∧ TIndexRep srt x tot vals := by
  unfold ShardIndex.init
  rw [← hn, readIix_any ps hb]
  simp only [bind, Except.bind, pure, Except.pure]
  refine ⟨_, rfl, by simp [hn], by simp [hn], ?_, rfl, ?_⟩
  · intro b hb
    rw [← hn] at hb
    have hget : ps[b]? = some ps[b] := List.getElem?_eq_getElem hb
    simp [List.getD_eq_getElem?_getD, hget, (h b _ hget).1]
  · intro b hd hh
    simp only [List.getElem?_map, Option.map_map, Option.map_eq_some_iff] at hh
    obtain ⟨p, hpb, rfl⟩ := hh
    exact (h b p hpb).2

theorem indexShards_twin (srt : Sorter) {d : Dir} (tot vals : Nat → Nat → List UInt32) (n : Nat) : ∀ i,
    (∀ j, i ≤ j → j < i + n → ∃ (ps : List Poster) (f : Bytes), d (.pos j) = some f ∧ d (.iix j) = some (ps.flatMap ShardIndexer.iixEntry) ∧
      ps.length = 65536 ∧ (∀ p ∈ ps, -(2 ^ 63) ≤ p.head ∧ p.head < 2 ^ 63) ∧
      ∀ (o : Nat) (p : Poster), ps[o]? = some p → p.total.toNat = (tot j o).length ∧ Delivers f (Posts.new p.head) (vals j o) true) →
    ∃ xs, Index.openShards srt d n i = .ok xs ∧ xs.length = n ∧ ∀ (k : Nat) s, xs[k]? = some s → TIndexRep srt s (tot (i + k)) (vals (i + k)) := by
  induction n with
  | zero => intro i _; exact ⟨[], rfl, rfl, by simp⟩
  | succ n ih =>
    intro i h
    obtain ⟨ps, f, h1, h2, h3, h4, h5⟩ := h i (Nat.le_refl _) (by omega)
    obtain ⟨xs, g1, g2, g3⟩ := ih (i + 1) (fun j hj hj' => h j (by omega) (by omega))
    obtain ⟨x, k1, k2⟩ := shardInit_twin srt h3 h4 h5
    refine ⟨x :: xs, ?_, by simp [g2], ?_⟩
    · simp only [ShardIndex.init, bind, Except.bind, pure, Except.pure] at k1
      simp only [Index.openShards, Dir.read, h1, h2, bind, Except.bind, g1, pure, Except.pure]
      split at k1
      · simp at k1
      · rename_i es he
        rw [he]
        injection k1 with k1
        rw [← k1]
    · intro k s hs
      cases k with
      | zero => simp only [List.getElem?_cons_zero, Option.some.injEq] at hs; subst hs; exact k2
      | succ k =>
        rw [List.getElem?_cons_succ] at hs
        have := g3 k s hs
        rwa [Nat.add_assoc, Nat.add_comm 1 k] at this

/-- a record found in another table -/
theorem docid2Doc_comps {t : Fnames.Table} {fs : List Fields} (c : Config) (xs : List ShardIndex) {id : UInt32} (i1 : 1 ≤ id.toNat) {f : Fields} {s : Document}
    (hf : fs[id.toNat - 1]? = some f) (hwf : Fnames.WF t) (hd : Describes t f s) (hr : ∃ cwd p, s.path = absPath cwd p) :
    Index.docid2Doc ⟨c, (Dmd.zeroFields :: fs).flatMap Dmd.encode, t, xs⟩ id = .ok s.meta := by
  have hget : (Dmd.zeroFields :: fs)[id.toNat]? = some f := by
    rw [show id.toNat = (id.toNat - 1) + 1 by omega]; exact hf
  obtain ⟨hlt, hge⟩ := List.getElem?_eq_some_iff.mp hget
  have hl := Dmd.lookup_encode (Dmd.zeroFields :: fs) id hlt
  rw [hge] at hl
  obtain ⟨cwd, p, hp⟩ := hr
  obtain ⟨r, hr1, hr2⟩ := Fnames.pathParts_abs cwd p
  have ha := hwf.abs hd.comps hd.fid
  rw [hp, hr2, join_split, ← hr1, ← hp] at ha
  simp only [Index.docid2Doc, hl, ha, bind, Except.bind, pure, Except.pure, Document.meta, hd.start, hd.stop]

theorem split_prefix (r r' : Bytes) : splitSlash r <+: splitSlash r' ↔ r = r' ∨ r ++ [47] <+: r' := by
  constructor
  · rintro ⟨t, ht⟩
    have hj := congrArg joinSlash ht
    rw [join_split] at hj
    cases t with
    | nil => rw [List.append_nil, join_split] at hj; exact .inl hj
    | cons a t =>
      right
      have key : ∀ l : List Bytes, l ≠ [] → joinSlash (l ++ a :: t) = joinSlash l ++ sep :: joinSlash (a :: t) := by
        intro l
        induction l with
        | nil => intro h; exact absurd rfl h
        | cons p l ih =>
          intro _
          cases l with
          | nil => exact joinSlash_cons p (by simp)
          | cons q l =>
            rw [List.cons_append, joinSlash_cons p (by simp), ih (by simp), joinSlash_cons p (by simp), List.append_assoc, List.cons_append]
      rw [key _ (splitSlash_ne_nil r), join_split] at hj
      exact ⟨joinSlash (a :: t), by rw [List.append_assoc]; exact hj⟩
  · rintro (rfl | ⟨t, rfl⟩)
    · exact List.prefix_refl _
    · rw [List.append_assoc, List.singleton_append, show (47 : UInt8) = sep from rfl, splitSlash_append]
      exact List.prefix_append _ _

/-- prefixes of the components of a path are the directories it is in -/
theorem parts_prefix {p p' : Bytes} (h : ∃ cwd a, p = absPath cwd a) (h' : ∃ cwd a, p' = absPath cwd a) :
    Fnames.pathParts p <+: Fnames.pathParts p' ↔ p = p' ∨ p ++ [47] <+: p' := by
  obtain ⟨cwd, a, rfl⟩ := h
  obtain ⟨cwd', a', rfl⟩ := h'
  obtain ⟨r, e1, e2⟩ := Fnames.pathParts_abs cwd a
  obtain ⟨r', e1', e2'⟩ := Fnames.pathParts_abs cwd' a'
  rw [e2, e2', e1, e1', split_prefix, List.cons_append, List.cons_prefix_cons]
  simp

theorem docid2Doc_beyond {t : Fnames.Table} {fs : List Fields} (c : Config) (xs : List ShardIndex) {id : UInt32} (i1 : 1 ≤ id.toNat) {f : Fields}
    (hf : fs[id.toNat - 1]? = some f) (h : t.length ≤ f.fid.toNat) :
    Index.docid2Doc ⟨c, (Dmd.zeroFields :: fs).flatMap Dmd.encode, t, xs⟩ id = .error .panic := by
  have hget : (Dmd.zeroFields :: fs)[id.toNat]? = some f := by
    rw [show id.toNat = (id.toNat - 1) + 1 by omega]; exact hf
  obtain ⟨hlt, hge⟩ := List.getElem?_eq_some_iff.mp hget
  have hl := Dmd.lookup_encode (Dmd.zeroFields :: fs) id hlt
  rw [hge] at hl
  simp only [Index.docid2Doc, hl, Fnames.abs, Fnames.absLoop, List.getElem?_eq_none h, bind, Except.bind]

/-- the index two indexers leave, opened -/
structure TwinHolds (u : Uni) (c : Config) (srt : Sorter) (x : Index) (docs A B : List Document) : Prop where
  len : x.shards.length = c.numShards.toNat
  sh : ∀ (j : Nat) s, x.shards[j]? = some s → TIndexRep srt s (postings (shardPosts u c j 1 (docs ++ B)))
    (fun o => twinRead (postings (shardPosts u c j 1 docs) o) (postings (shardPosts u c j 1 (docs ++ A)) o) (postings (shardPosts u c j 1 (docs ++ B)) o))
  old : ∀ id : UInt32, 1 ≤ id.toNat → id.toNat ≤ docs.length → x.docid2Doc id = .ok (metaOf docs id)
  all : (∀ s ∈ A, ∃ s' ∈ docs, s'.path = s.path) → ∀ id : UInt32, 1 ≤ id.toNat → id.toNat ≤ (docs ++ A ++ B).length → x.docid2Doc id = .ok (metaOf (docs ++ A ++ B) id)
  num : Dmd.numDocs x.dmd = (docs ++ A ++ B).length + 1
  idle : B = [] → ∀ (k : Nat) s, A[k]? = some s → ∀ id : UInt32, id.toNat = docs.length + k + 1 →
    (PathListed docs s.path → x.docid2Doc id = .ok s.meta) ∧ (¬ PathListed docs s.path → x.docid2Doc id = .error .panic)

theorem openIndex_twin {u : Uni} {J : CfgCodec} {c : Config} (hU : Usable J c) (srt : Sorter) {d : Dir} {docs A B : List Document}
    (h : TwinRep u J c d docs A B) (hf : Fits u c (docs ++ A ++ B)) (hr : Rooted (docs ++ A ++ B)) :
    ∃ x, Index.open J srt d = .ok x ∧ x.config = c ∧ TwinHolds u c srt x docs A B := by
  obtain ⟨t0, tA, tB, fs, gA, gB, k0, k1, k2, k3, k4, k5⟩ := h.front
  have hsz := k5.small hf.of_right.paths
  obtain ⟨t', m1, m2⟩ := Fnames.read_write tB k5.wf (by omega) k5.names
  obtain ⟨xs, n1, n2, n3⟩ := indexShards_twin srt (d := d) _ _ c.numShards.toNat 0 (fun j _ hj => h.sh j (by omega))
  have hn := hU.shards
  have k6 := k5.sim m2
  have l4 := k4.len
  have l5 := k5.len
  simp only [List.length_append] at l4 l5
  have hold : ∀ id : UInt32, 1 ≤ id.toNat → id.toNat ≤ docs.length →
      Index.docid2Doc ⟨c, (Dmd.zeroFields :: (fs ++ gA ++ gB)).flatMap Dmd.encode, t', xs⟩ id = .ok (metaOf docs id) := by
    intro id i1 i2
    obtain ⟨s, hs⟩ : ∃ s, docs[id.toNat - 1]? = some s := ⟨_, List.getElem?_eq_getElem (by omega)⟩
    obtain ⟨f, hfs⟩ : ∃ f, fs[id.toNat - 1]? = some f := ⟨_, List.getElem?_eq_getElem (by omega)⟩
    have hd := k6.desc (id.toNat - 1) f s (by rw [List.getElem?_append_left (by omega)]; exact hfs) (by rw [List.getElem?_append_left (by omega)]; exact hs)
    rw [docid2Doc_comps c xs i1 (by rw [List.append_assoc, List.getElem?_append_left (by omega)]; exact hfs) k6.wf hd
      (hr s (by simp [List.mem_of_getElem? hs]))]
    simp only [metaOf, hs]
  refine ⟨⟨c, (Dmd.zeroFields :: (fs ++ gA ++ gB)).flatMap Dmd.encode, t', xs⟩, ?_, rfl, ⟨n2, ?_, hold, ?_, ?_, ?_⟩⟩
  · simp only [Index.open, Config.readFrom, Dir.read, h.cfg, hU.codec, hU.check, if_neg (show ¬ c.numShards < 0 by omega),
      k1, k2, m1, n1, bind, Except.bind, pure, Except.pure]
  · intro j s hs
    have := n3 j s hs
    rwa [Nat.zero_add] at this
  · intro hA id i1 i2
    simp only [List.length_append] at i2
    by_cases c1 : id.toNat ≤ docs.length
    · rw [hold id i1 c1, List.append_assoc, metaOf_append docs _ i1 c1]
    by_cases c2 : id.toNat ≤ docs.length + A.length
    · obtain ⟨s, hs⟩ : ∃ s, A[id.toNat - 1 - docs.length]? = some s := ⟨_, List.getElem?_eq_getElem (by omega)⟩
      obtain ⟨f, hg⟩ : ∃ f, gA[id.toNat - 1 - docs.length]? = some f := ⟨_, List.getElem?_eq_getElem (by omega)⟩
      have g1 : (fs ++ gA)[id.toNat - 1]? = some f := by rw [List.getElem?_append_right (by omega), k3]; exact hg
      have g2 : (docs ++ A)[id.toNat - 1]? = some s := by rw [List.getElem?_append_right (by omega)]; exact hs
      have hd := k4.desc _ f s g1 g2
      obtain ⟨s', hs', hp⟩ := hA s (List.mem_of_getElem? hs)
      obtain ⟨i, hi, rfl⟩ := List.getElem_of_mem hs'
      obtain ⟨f', hf'⟩ : ∃ f', fs[i]? = some f' := ⟨_, List.getElem?_eq_getElem (by omega)⟩
      have q1 : (fs ++ gA)[i]? = some f' := by rw [List.getElem?_append_left (by omega)]; exact hf'
      have q2 : (docs ++ A)[i]? = some docs[i] := by rw [List.getElem?_append_left (by omega)]; exact List.getElem?_eq_getElem hi
      have q3 : (fs ++ gB)[i]? = some f' := by rw [List.getElem?_append_left (by omega)]; exact hf'
      have q4 : (docs ++ B)[i]? = some docs[i] := by rw [List.getElem?_append_left (by omega)]; exact List.getElem?_eq_getElem hi
      have d1 := k4.desc i f' _ q1 q2
      have d2 := k6.desc i f' _ q3 q4
      have e : f.fid = f'.fid := by
        have c1 := hd.comps
        rw [← hp] at c1
        exact UInt32.toNat_inj.mp (k4.wf.comps_inj c1 d1.comps)
      have hd' : Describes t' f s := by
        refine ⟨hd.start, hd.stop, ?_, ?_⟩
        · rw [e]; exact d2.fid
        · rw [e, ← hp]; exact d2.comps
      rw [docid2Doc_comps c xs i1 (by rw [List.getElem?_append_left (by rw [List.length_append]; omega)]; exact g1) k6.wf hd'
        (hr s (by simp [List.mem_of_getElem? hs]))]
      simp only [metaOf]
      rw [List.getElem?_append_left (by rw [List.length_append]; omega), g2]
    · obtain ⟨s, hs⟩ : ∃ s, B[id.toNat - 1 - (docs.length + A.length)]? = some s := ⟨_, List.getElem?_eq_getElem (by omega)⟩
      obtain ⟨f, hg⟩ : ∃ f, gB[id.toNat - 1 - (docs.length + A.length)]? = some f := ⟨_, List.getElem?_eq_getElem (by omega)⟩
      have hd := k6.desc (docs.length + (id.toNat - 1 - (docs.length + A.length))) f s
        (by rw [List.getElem?_append_right (by omega), k3, Nat.add_sub_cancel_left]; exact hg)
        (by rw [List.getElem?_append_right (by omega), Nat.add_sub_cancel_left]; exact hs)
      rw [docid2Doc_comps c xs i1 (by rw [List.getElem?_append_right (by rw [List.length_append]; omega), List.length_append, k3,
        show gA.length = A.length by omega]; exact hg) k6.wf hd (hr s (by simp [List.mem_of_getElem? hs]))]
      simp only [metaOf]
      rw [List.getElem?_append_right (by rw [List.length_append]; omega), List.length_append, hs]
  · show Dmd.numDocs ((Dmd.zeroFields :: (fs ++ gA ++ gB)).flatMap Dmd.encode) = _
    rw [Dmd.numDocs, Dmd.encodeAll_length, Dmd.rcdSize, List.length_cons]
    simp only [List.length_append]
    omega
  · intro hB k s hk id hid
    obtain ⟨⟨f0, q0⟩, q1, q2⟩ := k0
    have hkl := (List.getElem?_eq_some_iff.mp hk).1
    obtain ⟨f, hg⟩ : ∃ f, gA[k]? = some f := ⟨_, List.getElem?_eq_getElem (by omega)⟩
    have g1 : (fs ++ gA)[id.toNat - 1]? = some f := by
      rw [List.getElem?_append_right (by omega), k3, hid, show docs.length + k + 1 - 1 - docs.length = k by omega]; exact hg
    have g2 : (docs ++ A)[id.toNat - 1]? = some s := by
      rw [List.getElem?_append_right (by omega), hid, show docs.length + k + 1 - 1 - docs.length = k by omega]; exact hk
    have g3 : (fs ++ gA ++ gB)[id.toNat - 1]? = some f := by
      rw [List.getElem?_append_left (by rw [List.length_append]; omega)]; exact g1
    have hd := k4.desc _ f s g1 g2
    have hm : s ∈ docs ++ A ++ B := by simp [List.mem_of_getElem? hk]
    have hsim : Fnames.Sim t0 t' := by rw [← q2 hB]; exact m2
    have q0' := q0.sim hsim
    have q1' : ∀ i cs, Fnames.Comps t' i cs → Fnames.Comps tA i cs := fun i cs hc => q1 i cs (hsim.symm.comps hc)
    refine ⟨?_, fun hn => ?_⟩
    · rintro ⟨s', hs', hp⟩
      obtain ⟨i, hi, rfl⟩ := List.getElem_of_mem hs'
      obtain ⟨f', hf'⟩ : ∃ f', f0[i]? = some f' := ⟨_, List.getElem?_eq_getElem (by rw [q0.len]; exact hi)⟩
      have d1 := q0'.desc i f' _ hf' (List.getElem?_eq_getElem hi)
      obtain ⟨ys, hys⟩ := (parts_prefix (hr s hm) (hr docs[i] (by simp [List.getElem_mem hi]))).mpr hp
      obtain ⟨j, hj⟩ := d1.comps.prefix _ ys hys.symm
      have e := k4.wf.comps_inj hd.comps (q1' _ _ hj)
      have hlt : f.fid.toNat < t'.length := by
        rw [e]
        generalize Fnames.pathParts s.path = pp at hj
        cases hj with
        | root =>
          obtain ⟨r, hr0, _⟩ := q0'.wf.root
          exact (List.getElem?_eq_some_iff.mp hr0).1
        | step _ hn _ => exact (List.getElem?_eq_some_iff.mp hn).1
      exact docid2Doc_comps c xs (by omega) g3 k6.wf ⟨hd.start, hd.stop, hlt, by rw [e]; exact hj⟩ (hr s hm)
    · refine docid2Doc_beyond c xs (by omega) g3 ?_
      false_or_by_contra
      rename_i hlt
      obtain ⟨cs, hc, _⟩ := q0'.wf.comps f.fid.toNat (by omega)
      have e : cs = Fnames.pathParts s.path := (q1' _ _ hc).det hd.comps
      rcases q0'.cover _ _ hc with h | ⟨s', hs', hp⟩
      · obtain ⟨cwd, a, hp⟩ := hr s hm
        obtain ⟨r, _, e2⟩ := Fnames.pathParts_abs cwd a
        rw [h, hp, e2] at e
        exact splitSlash_ne_nil r e.symm
      · rw [e] at hp
        exact hn ⟨s', hs', (parts_prefix (hr s hm) (hr s' (by simp [hs']))).mp hp⟩

/-! ### Get -/

theorem getLoop_panics (grow : Nat → Nat) {x : Index} (rem : List UInt32) :
    ∀ (fuel : Nat) (rs : ReadState) (b : Blot), Delivers rs.file rs.posts rem true → (∀ id ∈ rem, (∃ m, x.docid2Doc id = .ok m) ∨ x.docid2Doc id = .error .panic) →
    (∃ id ∈ rem, x.docid2Doc id = .error .panic) → rem.length < fuel → Query.getLoop grow x false fuel rs b = .error .panic := by
  induction rem with
  | nil => intro fuel rs b _ _ h; simp at h
  | cons id rem ih =>
    intro fuel rs b h hD hp hf
    obtain ⟨f, rfl⟩ : ∃ f, fuel = f + 1 := ⟨fuel - 1, by simp at hf; omega⟩
    obtain ⟨p, h1, h2⟩ := ReadState.next_stepF h
    rcases hD id (by simp) with ⟨m, hm⟩ | hm
    · obtain ⟨b1, g1, g2, g3⟩ := Blot.next_unlim grow b m
      have := ih f { rs with posts := p } (b1.setLast m) h2 (fun i hi => hD i (by simp [hi])) (by
        obtain ⟨i, hi, he⟩ := hp
        rcases List.mem_cons.mp hi with rfl | hi
        · rw [hm] at he; cases he
        · exact ⟨i, hi, he⟩) (by simp at hf; omega)
      simp only [Query.getLoop, Bool.false_and, h1, g1, bind, Except.bind, hm, this]
      rfl
    · obtain ⟨b1, g1, _, _⟩ := Blot.next_unlim grow b ([], 0, 0)
      simp only [Query.getLoop, Bool.false_and, h1, g1, bind, Except.bind, hm]
      rfl


theorem initStates_twin {srt : Sorter} (hsrt : IsSorter srt) (xs : List ShardIndex) (h : ∀ s ∈ xs, ∃ tot vals, TIndexRep srt s tot vals) :
    ∃ ss, Index.initStates xs = .ok ss := by
  induction xs with
  | nil => exact ⟨[], rfl⟩
  | cons x xs ih =>
    obtain ⟨ss, g1⟩ := ih (fun s hs => h s (by simp [hs]))
    obtain ⟨_, _, hx⟩ := h x (by simp)
    have hp := hsrt.perm x.counts
    have hl : x.perm.length = 65536 := by rw [hx.perm, hp.length_eq, List.length_range, hx.lenC]
    have h1 : x.perm[0]? = some (x.perm[0]'(by omega)) := List.getElem?_eq_getElem _
    have hm : x.perm[0]'(by omega) ∈ srt x.counts := by rw [← hx.perm]; exact List.getElem_mem _
    have hlt := (hp.mem_iff).mp hm
    rw [List.mem_range, hx.lenC] at hlt
    have h2 : x.heads[x.perm[0]'(by omega)]? = some (x.heads[x.perm[0]'(by omega)]'(by rw [hx.lenH]; exact hlt)) := List.getElem?_eq_getElem _
    have h3 : x.counts[x.perm[0]'(by omega)]? = some (x.counts[x.perm[0]'(by omega)]'(by rw [hx.lenC]; exact hlt)) := List.getElem?_eq_getElem _
    obtain ⟨rs, hrs⟩ : ∃ rs, x.readStateAt 0 = .ok rs := by
      simp only [ShardIndex.readStateAt, ShardIndex.blotAt, h1, bind, Except.bind, ShardIndex.readStateForBlotAt, h2, h3]
      exact ⟨_, rfl⟩
    exact ⟨some rs :: ss, by simp [Index.initStates, hrs, g1, bind, Except.bind, pure, Except.pure]⟩

section
variable {u : Uni} {c : Config} {srt : Sorter} {x : Index} {docs A B : List Document} (h : TwinHolds u c srt x docs A B)
include h

theorem startQuery_twin (hsrt : IsSorter srt) : ∃ q, x.startQuery = .ok q ∧ q.n = UInt32.ofNat c.numShards.toNat := by
  obtain ⟨ss, g1⟩ := initStates_twin hsrt x.shards (fun s hs => by
    obtain ⟨i, hi, rfl⟩ := List.getElem_of_mem hs
    exact ⟨_, _, h.sh i _ (List.getElem?_eq_getElem hi)⟩)
  exact ⟨QState.setMax ⟨ss, 0, UInt32.ofNat c.numShards.toNat, 0⟩, by simp [Index.startQuery, g1, bind, Except.bind, pure, Except.pure, h.len], rfl⟩

/-- a blot's list -/
theorem get_twin_route (h0 : 0 < c.numShards.toNat) (hn : c.numShards.toNat < 2 ^ 32) (hlen : (docs ++ A ++ B).length + 1 < 2 ^ 32) (b : UInt32)
    {q : QState} (hq : q.n = UInt32.ofNat c.numShards.toNat) (ws : List UInt32)
    (hws : ws = twinRead (bucketIds u c docs (b.toNat % c.numShards.toNat) (b.toNat / c.numShards.toNat % 65536))
      (bucketIds u c (docs ++ A) (b.toNat % c.numShards.toNat) (b.toNat / c.numShards.toNat % 65536))
      (bucketIds u c (docs ++ B) (b.toNat % c.numShards.toNat) (b.toNat / c.numShards.toNat % 65536))) :
    ws.length ≤ (docs ++ A ++ B).length ∧ ∃ rs : ReadState, Delivers rs.file rs.posts ws true ∧
      ∀ (grow : Nat → Nat) fuel, Query.get grow x fuel q ⟨b, none⟩ = Query.getLoop grow x false fuel rs ⟨b, none⟩ := by
  simp only [List.length_append] at hlen ⊢
  have e : q.n.toNat = c.numShards.toNat := by rw [hq]; simp only [UInt32.toNat_ofNat']; omega
  have hz : q.n ≠ 0 := by intro hc; rw [hc] at e; simp at e; omega
  have e1 : (b % q.n).toNat = b.toNat % c.numShards.toNat := by rw [UInt32.toNat_mod, e]
  have e2 : (b / q.n).toUInt16.toNat = b.toNat / c.numShards.toNat % 65536 := by rw [UInt32.toNat_toUInt16, UInt32.toNat_div, e]
  have hlt : b.toNat % c.numShards.toNat < c.numShards.toNat := Nat.mod_lt _ h0
  have hq' : b.toNat / c.numShards.toNat % 65536 < 65536 := Nat.mod_lt _ (by decide)
  generalize b.toNat % c.numShards.toNat = j at *
  generalize b.toNat / c.numShards.toNat % 65536 = k at *
  obtain ⟨s, hs⟩ : ∃ s, x.shards[j]? = some s := ⟨_, List.getElem?_eq_getElem (by rw [h.len]; exact hlt)⟩
  have hi := h.sh _ _ hs
  have h1 : s.heads[k]? = some (s.heads[k]'(by rw [hi.lenH]; exact hq')) := List.getElem?_eq_getElem _
  have h2 : s.counts[k]? = some (s.counts[k]'(by rw [hi.lenC]; exact hq')) := List.getElem?_eq_getElem _
  have hd := hi.posts _ _ h1
  rw [postings_shardPosts u c j k hlt hq' docs (by omega), postings_shardPosts u c j k hlt hq' (docs ++ A) (by rw [List.length_append]; omega),
    postings_shardPosts u c j k hlt hq' (docs ++ B) (by rw [List.length_append]; omega)] at hd
  change Delivers _ _ (twinRead (bucketIds u c docs j k) (bucketIds u c (docs ++ A) j k) (bucketIds u c (docs ++ B) j k)) true at hd
  rw [← hws] at hd
  have hwl : ws.length ≤ docs.length + A.length + B.length := by
    have l1 : (bucketIds u c (docs ++ A) j k).length ≤ (docs ++ A).length := idsWith_length _ _ _
    have l2 : (bucketIds u c (docs ++ B) j k).length ≤ (docs ++ B).length := idsWith_length _ _ _
    rw [List.length_append] at l1 l2
    rw [hws]
    unfold twinRead
    split
    · omega
    · split
      · simp only [List.length_nil]; omega
      · omega
  refine ⟨hwl, ⟨s.id, k, 0, s.counts[k]'(by rw [hi.lenC]; exact hq'), Posts.new _, s.file⟩, hd, fun grow fuel => ?_⟩
  simp only [Query.get, if_neg hz, e1, hs, ShardIndex.readStateFor, ShardIndex.readStateForBlotAt, e2, h1, h2, bind, Except.bind, Option.isSome_none]

/-- `Get`, if the documents of the list read are found -/
theorem get_twin (h0 : 0 < c.numShards.toNat) (hn : c.numShards.toNat < 2 ^ 32) (hlen : (docs ++ A ++ B).length + 1 < 2 ^ 32) (grow : Nat → Nat) (b : UInt32) {fuel : Nat}
    (hfuel : (docs ++ A ++ B).length < fuel) {q : QState} (hq : q.n = UInt32.ofNat c.numShards.toNat) (ws : List UInt32)
    (hws : ws = twinRead (bucketIds u c docs (b.toNat % c.numShards.toNat) (b.toNat / c.numShards.toNat % 65536))
      (bucketIds u c (docs ++ A) (b.toNat % c.numShards.toNat) (b.toNat / c.numShards.toNat % 65536))
      (bucketIds u c (docs ++ B) (b.toNat % c.numShards.toNat) (b.toNat / c.numShards.toNat % 65536)))
    {D : UInt32 → Bytes × UInt32 × UInt32} (hD : ∀ id ∈ ws, x.docid2Doc id = .ok (D id)) :
    ∃ r, Query.get grow x fuel q ⟨b, none⟩ = .ok r ∧ r.blot = b ∧ r.vis = ws.map (fun id => Doc.ofMeta (D id)) := by
  obtain ⟨hwl, rs, hd, hg⟩ := get_twin_route h h0 hn hlen b hq ws hws
  obtain ⟨r, k1, k2, k3⟩ := getLoop_fine grow ws fuel rs ⟨b, none⟩ hd hD (by omega)
  exact ⟨r, by rw [hg]; exact k1, k2, by rw [k3]; rfl⟩

end

/-! ### The list -/

theorem idsWith_nil_iff (p : Document → Bool) (a : List Document) : ∀ i, idsWith p i a = [] ↔ a.any p = false := by
  induction a with
  | nil => intro i; simp [idsWith]
  | cons s a ih =>
    intro i
    rw [idsWith, List.any_cons]
    cases hp : p s with
    | true => simp
    | false => simpa using ih (i + 1)

theorem metaOf_zip (p : Document → Bool) (a : List Document) : ∀ (pre X : List Document), a.length ≤ X.length → (pre ++ X).length + 1 < 2 ^ 32 →
    (idsWith p (pre.length + 1) a).map (metaOf (pre ++ X)) = (((a.zip X).filter fun q => p q.1).map Prod.snd).map Document.meta := by
  induction a with
  | nil => intro pre X _ _; rfl
  | cons s a ih =>
    intro pre X hl hs
    cases X with
    | nil => simp at hl
    | cons y X =>
      have := ih (pre ++ [y]) X (by simpa using hl) (by simpa using hs)
      rw [List.append_assoc, List.singleton_append, List.length_append, List.length_singleton] at this
      rw [idsWith, List.zip_cons_cons, List.filter_cons]
      simp only [List.length_append, List.length_cons] at hs
      have hm : metaOf (pre ++ y :: X) (UInt32.ofNat (pre.length + 1)) = y.meta := by
        unfold metaOf
        rw [UInt32.toNat_ofNat', Nat.mod_eq_of_lt (by omega), List.getElem?_append_right (by omega), Nat.add_sub_cancel, Nat.sub_self]
        rfl
      cases hp : p s with
      | true => simp only [if_true, List.map_cons, hm, this]
      | false => simpa using this

theorem hasBlot_route (u : Uni) (c : Config) (b : Nat) :
    (fun s : Document => hasBlot u c s.dat (b / c.numShards.toNat % 65536 * c.numShards.toNat + b % c.numShards.toNat)) =
      fun s : Document => hasBlot u c s.dat b := by
  have e : b / c.numShards.toNat % 65536 * c.numShards.toNat + b % c.numShards.toNat = b % (c.numShards.toNat * 65536) := by
    rw [Nat.mod_mul, Nat.add_comm, Nat.mul_comm]
  funext s; unfold hasBlot; rw [e]; simp only [Nat.mod_mod]

theorem twinRead_cases (u : Uni) (c : Config) (docs A B : List Document) (b : Nat) :
    twinRead (bucketIds u c docs (b % c.numShards.toNat) (b / c.numShards.toNat % 65536)) (bucketIds u c (docs ++ A) (b % c.numShards.toNat) (b / c.numShards.toNat % 65536))
      (bucketIds u c (docs ++ B) (b % c.numShards.toNat) (b / c.numShards.toNat % 65536)) =
    if B.any (fun s => hasBlot u c s.dat b) then idsWith (fun s => hasBlot u c s.dat b) 1 docs ++ idsWith (fun s => hasBlot u c s.dat b) (docs.length + 1) B
    else if docs.any (fun s => hasBlot u c s.dat b) then idsWith (fun s => hasBlot u c s.dat b) 1 docs ++ idsWith (fun s => hasBlot u c s.dat b) (docs.length + 1) A
    else [] := by
  unfold bucketIds
  rw [hasBlot_route, idsWith_append, idsWith_append, Nat.add_comm 1]
  generalize (fun s : Document => hasBlot u c s.dat b) = p
  unfold twinRead
  cases hB : B.any p with
  | true =>
    have : idsWith p (docs.length + 1) B ≠ [] := by intro hc; rw [idsWith_nil_iff, hB] at hc; cases hc
    rw [if_pos (by simpa using this), if_pos rfl]
  | false =>
    have : idsWith p (docs.length + 1) B = [] := (idsWith_nil_iff _ _ _).mpr hB
    rw [this, List.append_nil, if_neg (fun h => h rfl), if_neg (show ¬ (false = true) from nofun)]
    cases hd : docs.any p with
    | true =>
      have : idsWith p 1 docs ≠ [] := by intro hc; rw [idsWith_nil_iff, hd] at hc; cases hc
      rw [if_neg this, if_pos rfl]
    | false => rw [if_pos ((idsWith_nil_iff _ _ _).mpr hd), if_neg (show ¬ (false = true) from nofun)]

theorem twinRead_found (u : Uni) (c : Config) (docs A B : List Document) (hl : (docs ++ A ++ B).length + 1 < 2 ^ 32) (b : Nat) :
    (twinRead (bucketIds u c docs (b % c.numShards.toNat) (b / c.numShards.toNat % 65536)) (bucketIds u c (docs ++ A) (b % c.numShards.toNat) (b / c.numShards.toNat % 65536))
      (bucketIds u c (docs ++ B) (b % c.numShards.toNat) (b / c.numShards.toNat % 65536))).map (metaOf (docs ++ A ++ B)) =
    (twinFound u c docs A B b).map Document.meta := by
  rw [twinRead_cases, twinFound]
  unfold found
  have hz : (fun q : Document × Document => hasBlot u c q.1.dat b) = fun q => (fun s : Document => hasBlot u c s.dat b) q.1 := rfl
  rw [hz]
  generalize (fun s : Document => hasBlot u c s.dat b) = p
  have h0 : (idsWith p 1 docs).map (metaOf (docs ++ A ++ B)) = (docs.filter p).map Document.meta := by
    rw [← metaOf_ids p docs [] (by simp only [List.length_append] at hl; simp only [List.nil_append]; omega)]
    apply List.map_congr_left
    intro id hid
    simp only [List.length_append] at hl
    obtain ⟨i1, i2⟩ := idsWith_mem p docs 1 (by omega) id hid
    rw [List.append_assoc, metaOf_append docs _ i1 (by omega)]
    rfl
  cases hB : B.any p with
  | true =>
    rw [if_pos rfl, if_pos rfl, List.map_append, List.map_append, h0, List.append_assoc, metaOf_zip p B docs (A ++ B) (by simp) (by simpa using hl)]
  | false =>
    rw [if_neg (show ¬ (false = true) from nofun), if_neg (show ¬ (false = true) from nofun)]
    cases hd : docs.any p with
    | true =>
      rw [if_pos rfl, if_pos rfl, List.map_append, List.map_append, h0]
      congr 1
      rw [← metaOf_ids p A docs (by simp only [List.length_append] at hl ⊢; omega)]
      apply List.map_congr_left
      intro id hid
      simp only [List.length_append] at hl
      obtain ⟨i1, i2⟩ := idsWith_mem p A (docs.length + 1) (by omega) id hid
      exact metaOf_append (docs ++ A) _ (by omega) (by rw [List.length_append]; omega)
    | false => rw [if_neg (show ¬ (false = true) from nofun), if_neg (show ¬ (false = true) from nofun)]; rfl

end Dupi
