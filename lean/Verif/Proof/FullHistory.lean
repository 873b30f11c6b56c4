import Verif.Proof.FullPosts
import Verif.Spec.Records
import Verif.Proof.Lost
/-! Any number of sessions with any number of documents each: what the directory holds after them. -/

namespace Dupi
open Spec

theorem laidFrom_snoc (h : Sessions) (s : Bytes × List Doc) : ∀ docs,
    laidFrom docs (h ++ [s]) = laidFrom docs h ++ filler (laidFrom docs h) ++ added s.1 s.2 := by
  induction h with
  | nil => intro docs; rfl
  | cons a h ih => intro docs; exact ih _

theorem filler_dat {docs : List Document} : ∀ s ∈ filler docs, s = noDocument := by
  intro s hs
  unfold filler at hs
  split at hs <;> simp_all

theorem shardPosts_filler (u : Uni) (c : Config) (j i : Nat) (docs : List Document) : shardPosts u c j i (filler docs) = [] := by
  unfold filler
  split
  · simp only [shardPosts, noDocument, blotsOf_nil, docPosts]; rfl
  · rfl

theorem numBlots_filler (u : Uni) (c : Config) (docs : List Document) : numBlots u c (filler docs) = 0 := by
  unfold filler
  split
  · simp [numBlots, noDocument, blotsOf_nil]
  · rfl

theorem MetaRep.filler {t : Fnames.Table} {fs : List Fields} {docs : List Document} (h : MetaRep t fs docs) :
    MetaRep t (fs ++ Dmd.blank (Dmd.zeroFields :: fs)) (docs ++ Spec.filler docs) := by
  have e : (Dmd.zeroFields :: fs).length = docs.length + 1 := by rw [List.length_cons, h.len]
  unfold Dmd.blank Spec.filler
  rw [e]
  by_cases h0 : (docs.length + 1) % 2 ^ 32 = 0
  · rw [if_pos h0, if_pos h0]
    refine ⟨h.wf, h.names, ?_, by simp [h.len], ?_, ?_⟩
    · rw [List.map_append, List.sum_append]; have := h.size; omega
    · intro k f s hf hs
      simp only [List.getElem?_append, h.len] at hf hs
      by_cases hk : k < docs.length
      · simp only [hk, if_true] at hf hs
        exact h.desc k f s hf hs
      · simp only [hk, if_false] at hf hs
        have h0 : k - docs.length = 0 := by
          false_or_by_contra
          rw [List.getElem?_eq_none (by simp; omega)] at hf; cases hf
        rw [h0] at hf hs
        simp only [List.getElem?_cons_zero, Option.some.injEq] at hf hs
        subst hf hs
        obtain ⟨r, hr0, _⟩ := h.wf.root
        exact ⟨rfl, rfl, (List.getElem?_eq_some_iff.mp hr0).1, .root⟩
    · intro i cs hc
      rcases h.cover i cs hc with h | ⟨s, h1, h2⟩
      · exact .inl h
      · exact .inr ⟨s, by simp [h1], h2⟩
  · rw [if_neg h0, if_neg h0, List.append_nil, List.append_nil]; exact h

/-- an index with any number of documents can be opened to append -/
theorem open_ring {u : Uni} {J : CfgCodec} {c : Config} (hU : Usable J c) {d : Dir} {docs : List Document} (h : DirRep u J c d docs)
    (hp : FewPaths (docs.map fun s => s.path)) (hb : 23 * numBlots u c docs < 2 ^ 63) :
    ∃ x, Indexer.open J d = .ok x ∧ RingRep u c x (docs ++ filler docs) := by
  obtain ⟨bs, h1, h2, h3⟩ := makeBlotters_rep hU
  obtain ⟨t, fs, k1, k2, k3⟩ := h.front
  have hsz := k3.small hp
  obtain ⟨a, g1, g2⟩ := Dmd.newAdder_ring c.docFlushRate hU.flush (Dmd.zeroFields :: fs) (by simp)
  obtain ⟨t', m1, m2⟩ := Fnames.read_write t k3.wf (by omega) k3.names
  obtain ⟨xs, n1, n2, n3⟩ := openShards_rep (d := d) (fun j => postings (shardPosts u c j 1 docs)) c.numShards.toNat 0
    (fun j _ hj => h.small hb (by omega))
  have hn := hU.shards
  refine ⟨⟨c, ⟨t', a, d .dmd⟩, bs, xs⟩, ?_, ?_⟩
  · simp only [Indexer.open, Config.readFrom, Dir.read, h.cfg, hU.codec, hU.check, Indexer.makeShards, if_neg (show ¬ c.numShards < 0 by omega),
      TokenConfig.fromConfig, hU.cons.tok, if_true, k1, k2, g1, m1, n1, h1, bind, Except.bind, pure, Except.pure]
  · refine ⟨rfl, ⟨fs ++ Dmd.blank (Dmd.zeroFields :: fs), ?_, (k3.sim m2).filler⟩, h2, h3, n2, ?_⟩
    · show Dmd.Ring a (d .dmd) _
      rw [k2]; exact g2
    · intro j s hs
      have := n3 j s hs
      rw [Nat.zero_add] at this
      rw [shardPosts_append, shardPosts_filler, List.append_nil]
      exact this

theorem compress_length_append (a b : List UInt32) : (compress a).length ≤ (compress (a ++ b)).length := by
  induction b using snocInd with
  | nil => simp
  | snoc b v ih =>
    rw [← List.append_assoc, compress_snoc]
    split
    · exact ih
    · rw [List.length_append]; omega

theorem ShortLists.left {u : Uni} {c : Config} {a b : List Document} (h : ShortLists u c (a ++ b)) : ShortLists u c a := by
  intro j q hj hq
  have := h j q hj hq
  rw [idsWith_append] at this
  exact Nat.lt_of_le_of_lt (compress_length_append _ _) this

theorem fewPaths_left {a b : List Document} (h : FewPaths ((a ++ b).map fun s => s.path)) : FewPaths (a.map fun s => s.path) :=
  Fnames.FewPaths.mono (fun p hp => by rw [List.map_append]; exact List.mem_append_left _ hp) h

/-- limits that are left when there is none on the number of documents -/
structure RingRoom (u : Uni) (c : Config) (docs : List Document) : Prop where
  paths : FewPaths (docs.map fun s => s.path)
  posts : 23 * numBlots u c docs < 2 ^ 63
  lists : ShortLists u c docs

theorem RingRoom.left {u : Uni} {c : Config} {a b : List Document} (h : RingRoom u c (a ++ b)) : RingRoom u c a :=
  ⟨fewPaths_left h.paths, by have := h.posts; rw [numBlots_append] at this; omega, h.lists.left⟩

/-- **Every history, with any numbers of documents, leaves a directory with the records of its documents.** -/
theorem History.ring {u : Uni} {J : CfgCodec} {c : Config} (hU : Usable J c) (hw : c.numShatters < 2 ^ 32) {h : Sessions} {d : Dir}
    (hh : History u J c h d) (hf : RingRoom u c (laidFrom [] h)) : DirRep u J c d (laidFrom [] h) := by
  induction hh with
  | create h1 h2 =>
    rename_i x cwd docs d
    obtain ⟨y, g1, g2⟩ := create_rep (u := u) hU
    cases h1.symm.trans g1
    have e : laidFrom [] [(cwd, docs)] = [] ++ added cwd docs := by
      simp only [laidFrom, filler, List.length_nil, if_neg (show ¬ (0 + 1) % 2 ^ 32 = 0 by omega), List.append_nil]
    rw [e] at hf ⊢
    exact full_rep hU g2.ring cwd docs hw hf.lists hf.paths (.inl rfl) h2
  | append h1 h2 h3 ih =>
    rename_i hist d0 d1 x cwd docs
    rw [laidFrom_snoc] at hf ⊢
    have hl := hf.left.left
    have hr := ih hl
    obtain ⟨y, g1, g2⟩ := open_ring hU hr hl.paths hl.posts
    cases h2.symm.trans g1
    exact full_rep hU g2 cwd docs hw hf.lists hf.paths (.inr hr.cfg) h3

/-- any sessions can happen, with any numbers of documents -/
theorem History.ring_exists {u : Uni} {J : CfgCodec} {c : Config} (hU : Usable J c) (hw : c.numShatters < 2 ^ 32) (s : Bytes × List Doc) (h : Sessions)
    (hf : RingRoom u c (laidFrom [] (s :: h))) : ∃ d, History u J c (s :: h) d := by
  induction h using snocInd with
  | nil =>
    obtain ⟨x, g1, g2⟩ := create_rep (u := u) hU
    have e : laidFrom [] [s] = [] ++ added s.1 s.2 := by
      simp only [laidFrom, filler, List.length_nil, if_neg (show ¬ (0 + 1) % 2 ^ 32 = 0 by omega), List.append_nil]
    rw [e] at hf
    obtain ⟨d, hd⟩ := full_exists hU g2.ring s.1 s.2 hw hf.lists hf.paths (d := Dir.empty) (.inl rfl)
    exact ⟨d, .create g1 hd⟩
  | snoc h s' ih =>
    rw [← List.cons_append, laidFrom_snoc] at hf
    have hl := hf.left.left
    obtain ⟨d0, h0⟩ := ih hl
    have hr := History.ring hU hw h0 hl
    obtain ⟨x, g1, g2⟩ := open_ring hU hr hl.paths hl.posts
    obtain ⟨d, hd⟩ := full_exists hU g2 s'.1 s'.2 hw hf.lists hf.paths (.inr hr.cfg)
    exact ⟨d, .append h0 g1 hd⟩

/-- the records that can be looked up are those of documents -/
theorem laidFrom_low (h : Sessions) : ∀ docs, RootedLow docs → RootedLow (laidFrom docs h) := by
  induction h with
  | nil => intro docs hd; exact hd
  | cons s h ih =>
    intro docs hd
    refine ih _ fun k t hk ht => ?_
    rw [List.append_assoc, List.getElem?_append] at ht
    split at ht
    · exact hd k t hk ht
    · rename_i hl
      rw [List.getElem?_append] at ht
      split at ht
      · rename_i hl'
        unfold filler at hl'
        split at hl'
        · omega
        · simp at hl'
      · exact added_rooted s.1 s.2 t (List.mem_of_getElem? ht)

/-- leaving out the records that belong to no document gives the documents -/
theorem laidFrom_numBlots (u : Uni) (c : Config) (h : Sessions) : ∀ docs, numBlots u c (laidFrom docs h) = numBlots u c docs + numBlots u c (documents h) := by
  induction h with
  | nil => intro docs; simp [laidFrom, documents, numBlots]
  | cons s h ih =>
    intro docs
    have e : documents (s :: h) = added s.1 s.2 ++ documents h := rfl
    rw [laidFrom, ih, numBlots_append, numBlots_append, numBlots_filler, e, numBlots_append]
    omega

theorem laidFrom_paths (h : Sessions) : ∀ docs, ∀ s ∈ laidFrom docs h, s ∈ docs ∨ s = noDocument ∨ s ∈ documents h := by
  induction h with
  | nil => intro docs s hs; exact .inl hs
  | cons a h ih =>
    intro docs s hs
    have e : documents (a :: h) = added a.1 a.2 ++ documents h := rfl
    rcases ih _ s hs with h1 | h1 | h1
    · rcases List.mem_append.mp h1 with h1 | h1
      · rcases List.mem_append.mp h1 with h1 | h1
        · exact .inl h1
        · exact .inr (.inl (filler_dat s h1))
      · exact .inr (.inr (by rw [e]; exact List.mem_append_left _ h1))
    · exact .inr (.inl h1)
    · exact .inr (.inr (by rw [e]; exact List.mem_append_right _ h1))

theorem fewPaths_none {ps : List Bytes} (h : FewPaths ps) : FewPaths ([] :: ps) := by
  refine ⟨?_, ?_⟩
  · have : (([] : Bytes) :: ps).flatMap ways = ps.flatMap ways := by
      rw [List.flatMap_cons]; rfl
    rw [this]; exact h.1
  · intro p hp
    rcases List.mem_cons.mp hp with rfl | hp
    · simp
    · exact h.2 p hp

theorem laid_room {u : Uni} {c : Config} {h : Sessions} (hp : FewPaths ((documents h).map fun s => s.path)) (hb : 23 * numBlots u c (documents h) < 2 ^ 63)
    (hs : ShortLists u c (laidFrom [] h)) : RingRoom u c (laidFrom [] h) := by
  refine ⟨Fnames.FewPaths.mono ?_ (fewPaths_none hp), by rw [laidFrom_numBlots]; simpa [numBlots] using hb, hs⟩
  intro p hp
  obtain ⟨s, hs, rfl⟩ := List.mem_map.mp hp
  rcases laidFrom_paths h [] s hs with h | rfl | h
  · simp at h
  · exact List.mem_cons_self
  · exact List.mem_cons_of_mem _ (List.mem_map_of_mem h)

end Dupi
