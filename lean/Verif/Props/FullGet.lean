import Verif.Proof.FullPosts
import Verif.Props.Full
import Verif.Proof.Lost
import Mathlib.Data.List.Forall2
/-! # C105: what is found when there are more documents than document ids

A session may add more documents than there are ids.  It comes to an end whatever the scheduling, and the
index it leaves can be opened and queried.  `Get` finds the documents by their ids: for each id under the
blot, consecutive repetitions left out, it shows the first document that was given the id. -/

namespace Dupi.Props
open Spec

/-- the ids of the documents that have the blot `b`, in order; document number `k` has the id `k` modulo
`2 ^ 32` -/
def idsUnder (u : Uni) (c : Config) (docs : List Document) (b : Nat) : List UInt32 :=
  ((docs.zipIdx 1).filter fun s => hasBlot u c s.1.dat b).map fun s => UInt32.ofNat s.2

/-- `doc` is shown for the id: the first document that was given it, or, for 0, the root directory -/
def ShownFor (docs : List Document) (id : UInt32) (doc : Doc) : Prop :=
  (id = 0 ∧ doc = ⟨[47], 0, 0, none⟩) ∨ (id ≠ 0 ∧ ∃ s, docs[id.toNat - 1]? = some s ∧ doc = s.shown)

/-- no bucket has as many entries as there are 32 bit numbers -/
def FewUnder (u : Uni) (c : Config) (docs : List Document) : Prop :=
  ∀ b, b < numBuckets c → (compress (idsUnder u c docs b)).length < 2 ^ 32

theorem idsWith_zip (p : Document → Bool) (docs : List Document) : ∀ i,
    idsWith p i docs = ((docs.zipIdx i).filter fun s => p s.1).map fun s => UInt32.ofNat s.2 := by
  induction docs with
  | nil => intro i; rfl
  | cons s docs ih =>
    intro i
    rw [idsWith, List.zipIdx_cons, ih]
    by_cases h : p s = true
    · rw [if_pos h, List.filter_cons_of_pos (by simpa using h), List.map_cons]
    · rw [if_neg h, List.filter_cons_of_neg (by simpa using h)]

theorem FewUnder.short {u : Uni} {c : Config} {docs : List Document} (h : FewUnder u c docs) : ShortLists u c docs := by
  intro j q hj hq
  rw [idsWith_zip]
  apply h
  unfold numBuckets
  calc q * c.numShards.toNat + j < q * c.numShards.toNat + c.numShards.toNat := by omega
    _ = (q + 1) * c.numShards.toNat := by rw [Nat.add_mul]; omega
    _ ≤ 65536 * c.numShards.toNat := Nat.mul_le_mul_right _ (by omega)
    _ = _ := Nat.mul_comm _ _

theorem bucket_ids (u : Uni) (c : Config) (docs : List Document) (b : Nat) :
    idsWith (fun s => hasBlot u c s.dat (b / c.numShards.toNat % 65536 * c.numShards.toNat + b % c.numShards.toNat)) 1 docs = idsUnder u c docs b := by
  have e : b / c.numShards.toNat % 65536 * c.numShards.toNat + b % c.numShards.toNat = b % (c.numShards.toNat * 65536) := by
    rw [Nat.mod_mul, Nat.add_comm, Nat.mul_comm]
  have hp : (fun s : Document => hasBlot u c s.dat (b / c.numShards.toNat % 65536 * c.numShards.toNat + b % c.numShards.toNat)) =
      fun s : Document => hasBlot u c s.dat b := by
    funext s; unfold hasBlot; rw [e]; simp only [Nat.mod_mod]
  rw [hp, idsWith_zip]
  rfl

/-- what queries make of such an index -/
def AnswersFull (u : Uni) (J : CfgCodec) (srt : Sorter) (c : Config) (docs : List Document) (d : Dir) : Prop :=
  ∃ y q, Index.open J srt d = .ok y ∧ y.startQuery = .ok q ∧
    ∀ grow (b : UInt32) fuel, (compress (idsUnder u c docs b.toNat)).length < fuel →
      ∃ r, Query.get grow y fuel q ⟨b, none⟩ = .ok r ∧ r.blot = b ∧ List.Forall₂ (ShownFor docs) (compress (idsUnder u c docs b.toNat)) r.vis

theorem full_answers {u : Uni} {J : CfgCodec} {c : Config} (hU : Usable J c) {srt : Sorter} (hsrt : IsSorter srt) {d : Dir} {docs : List Document}
    (h : DirRep u J c d docs) (hp : FewPaths (docs.map fun s => s.path)) (hb : 23 * numBlots u c docs < 2 ^ 63) (hr : RootedLow docs) :
    AnswersFull u J srt c docs d := by
  obtain ⟨y, h1, h2, h3⟩ := full_open hU srt h hp hb hr
  have hn := hU.shards
  have hn' := hU.shardsSmall
  obtain ⟨q, k1, _, _, k4⟩ := Query.startQuery_rep hsrt h3 (by omega) (by omega)
  refine ⟨y, q, h1, k1, fun grow b fuel hfuel => ?_⟩
  obtain ⟨hz, s, rs, g1, g2, g3, g4⟩ := Query.get_route h3 (by omega) (by omega) b k4
  simp only [bucket_ids] at g3 g4
  obtain ⟨r, m1, m2, m3, _⟩ := Query.getLoop_unlim grow _ fuel rs ⟨b, none⟩ g3 g4 hfuel
  refine ⟨r, ?_, m2, ?_⟩
  · simp only [Query.get, if_neg hz, g1, g2, bind, Except.bind, Option.isSome_none]; exact m1
  · rw [m3]
    show List.Forall₂ _ _ ([] ++ _)
    rw [List.nil_append, List.forall₂_map_right_iff, List.forall₂_same]
    intro id hid
    rw [← bucket_ids] at hid
    obtain ⟨k, i1, i2, rfl⟩ := idsWith_le _ docs 1 id (compress_mem _ _ hid)
    unfold firstMeta
    by_cases h0 : UInt32.ofNat k = 0
    · exact .inl ⟨h0, by rw [if_pos h0]; rfl⟩
    · have hpos : (UInt32.ofNat k).toNat ≠ 0 := fun e => h0 (UInt32.toNat_inj.mp (by simpa using e))
      have hle : (UInt32.ofNat k).toNat ≤ k := by simp only [UInt32.toNat_ofNat']; exact Nat.mod_le _ _
      obtain ⟨s, hs⟩ : ∃ s, docs[(UInt32.ofNat k).toNat - 1]? = some s := ⟨_, List.getElem?_eq_getElem (by omega)⟩
      exact .inr ⟨h0, s, hs, by rw [if_neg h0, metaOf, hs]; rfl⟩

/-- **C105, the index that is made.**  Any number of documents is added to a new index; the ids are used up
or not.  There is a complete run of the session; whatever the run, the directory it leaves opens, and `Get`
shows for each of the ids under a blot, one after the other and without immediate repetitions, the first
document that was given the id. -/
theorem C105_found_partial {u : Uni} {J : CfgCodec} {c : Config} (hU : Usable J c) (hw : c.numShatters < 2 ^ 32) {srt : Sorter} (hsrt : IsSorter srt)
    {x : Indexer} (hx : Indexer.create c = .ok x) (cwd : Bytes) (new : List Doc) (hp : FewPaths ((added cwd new).map fun s => s.path))
    (hb : 23 * numBlots u c (added cwd new) < 2 ^ 63) (hs : FewUnder u c (added cwd new)) :
    (∃ d, Indexer.Session u J cwd x new Dir.empty d) ∧
      ∀ d, Indexer.Session u J cwd x new Dir.empty d → AnswersFull u J srt c (added cwd new) d := by
  obtain ⟨y, g1, g2⟩ := create_rep (u := u) hU
  cases g1.symm.trans hx
  refine ⟨full_exists hU g2.ring cwd new hw (by simpa using hs.short) (by simpa using hp) (.inl rfl), fun d hd => ?_⟩
  have := full_rep hU g2.ring cwd new hw (by simpa using hs.short) (by simpa using hp) (.inl rfl) hd
  rw [List.nil_append] at this
  exact full_answers hU hsrt this hp hb (Rooted.low fun s hs => added_rooted cwd new s hs)

/-- **C105, an index opened to append.**  The same, for any number of documents added to an index whose
ids are not used up. -/
theorem C105_found_appended_partial {u : Uni} {J : CfgCodec} {c : Config} (hU : Usable J c) (hw : c.numShatters < 2 ^ 32) {srt : Sorter}
    (hsrt : IsSorter srt) {h : Sessions} {d0 : Dir} (hh : History u J c h d0) (hf : Fits u c (documents h)) {x : Indexer}
    (hx : Indexer.open J d0 = .ok x) (cwd : Bytes) (new : List Doc) (hp : FewPaths ((documents h ++ added cwd new).map fun s => s.path))
    (hb : 23 * numBlots u c (documents h ++ added cwd new) < 2 ^ 63) (hs : FewUnder u c (documents h ++ added cwd new)) :
    (∃ d, Indexer.Session u J cwd x new d0 d) ∧
      ∀ d, Indexer.Session u J cwd x new d0 d → AnswersFull u J srt c (documents h ++ added cwd new) d := by
  have h0 := hh.rep hU hf
  obtain ⟨y, g1, g2⟩ := open_rep hU h0 hf
  cases g1.symm.trans hx
  refine ⟨full_exists hU g2.ring cwd new hw hs.short hp (.inr h0.cfg), fun d hd => ?_⟩
  refine full_answers hU hsrt (full_rep hU g2.ring cwd new hw hs.short hp (.inr h0.cfg) hd) hp hb (Rooted.low fun s hs => ?_)
  rcases List.mem_append.mp hs with h | h
  · exact documents_rooted _ s h
  · exact added_rooted cwd new s h

/-- **C105 is false, as seen by a query.**  After `2 ^ 32` documents without text comes one with a text; it is
the only one with the blots of the text.  `Get` shows, for any of them, the first of the documents without
text, and nothing else. -/
theorem C105_found_false {u : Uni} {J : CfgCodec} {c : Config} (hU : Usable J c) (hw : c.numShatters < 2 ^ 32) {srt : Sorter} (hsrt : IsSorter srt)
    {x : Indexer} (hx : Indexer.create c = .ok x) (cwd : Bytes) (p p' dat : Bytes) (hp : FewPaths [absPath cwd p, absPath cwd p'])
    (hb : 23 * (blotsOf u c dat).length < 2 ^ 63) (b : UInt32) (hd : hasBlot u c dat b.toNat = true) :
    let new := List.replicate (2 ^ 32) ⟨p, 0, 0, some []⟩ ++ [⟨p', 0, 1, some dat⟩]
    (∃ d, Indexer.Session u J cwd x new Dir.empty d) ∧
      ∀ d, Indexer.Session u J cwd x new Dir.empty d → ∃ y q, Index.open J srt d = .ok y ∧ y.startQuery = .ok q ∧
        ∀ grow fuel, 1 < fuel → ∃ r, Query.get grow y fuel q ⟨b, none⟩ = .ok r ∧ r.vis = [⟨absPath cwd p, 0, 0, none⟩] := by
  intro new
  have hadd : added cwd new = List.replicate (2 ^ 32) ⟨placeName (place cwd p), 0, 0, []⟩ ++ [⟨placeName (place cwd p'), 0, 1, dat⟩] := by
    simp only [new, added, List.map_append, List.map_replicate, List.map_cons, List.map_nil, Option.getD_some]
  have he := blotsOf_nil u c
  have hno : ∀ b, hasBlot u c [] b = false := by intro b; simp [hasBlot, he]
  have hids : ∀ b, idsUnder u c (added cwd new) b = if hasBlot u c dat b then [1] else [] := by
    intro b
    have h0 : ∀ (n i : Nat), idsWith (fun s => hasBlot u c s.dat b) i (List.replicate n ⟨placeName (place cwd p), 0, 0, []⟩) = [] := by
      intro n
      induction n with
      | zero => intro i; rfl
      | succ n ih => intro i; rw [List.replicate_succ, idsWith, if_neg (by simp [hno]), ih]
    have e : idsUnder u c (added cwd new) b = idsWith (fun s => hasBlot u c s.dat b) 1 (added cwd new) := (idsWith_zip (fun s => hasBlot u c s.dat b) (added cwd new) 1).symm
    rw [e, hadd, idsWith_append, h0, List.nil_append, List.length_replicate]
    simp only [idsWith]
    have : UInt32.ofNat (1 + 2 ^ 32) = 1 := UInt32.toNat_inj.mp (by rw [UInt32.toNat_ofNat', UInt32.toNat_one]; omega)
    rw [this]
  have hc : ∀ b, (compress (idsUnder u c (added cwd new) b)).length ≤ 1 := by
    intro b; rw [hids]; split <;> simp [compress]
  have hp' : FewPaths ((added cwd new).map fun s => s.path) := by
    refine Fnames.FewPaths.mono ?_ hp
    intro s hs
    rw [hadd] at hs
    simp only [List.map_append, List.map_replicate, List.mem_append, List.mem_replicate, List.map_cons, List.map_nil, List.mem_singleton] at hs
    rcases hs with ⟨_, rfl⟩ | rfl
    · rw [absPath_place]; simp
    · rw [← absPath_place cwd p']; simp
  have hnb : numBlots u c (added cwd new) = (blotsOf u c dat).length := by
    rw [hadd, numBlots_append]
    simp only [numBlots, List.map_replicate, he, List.length_nil, List.sum_replicate, smul_eq_mul, Nat.mul_zero, Nat.zero_add, List.map_cons, List.map_nil,
      List.sum_cons, List.sum_nil, Nat.add_zero]
  obtain ⟨g1, g2⟩ := C105_found_partial (u := u) hU hw hsrt hx cwd new hp' (by rw [hnb]; exact hb) (fun b _ => by have := hc b; omega)
  refine ⟨g1, fun d hd' => ?_⟩
  obtain ⟨y, q, k1, k2, k3⟩ := g2 d hd'
  refine ⟨y, q, k1, k2, fun grow fuel hf => ?_⟩
  obtain ⟨r, r1, r2, r3⟩ := k3 grow b fuel (by have := hc b.toNat; omega)
  refine ⟨r, r1, ?_⟩
  rw [hids, if_pos hd] at r3
  have e1 : compress [(1 : UInt32)] = [1] := rfl
  rw [e1] at r3
  generalize r.vis = v at r3
  cases r3 with
  | cons h1 h2 =>
    cases h2
    rcases h1 with ⟨h0, _⟩ | ⟨_, s, hs, rfl⟩
    · exact absurd h0 (by decide)
    · have hz : (2 : Nat) ^ 32 = (2 ^ 32 - 1) + 1 := by omega
      rw [hadd, show (1 : UInt32).toNat - 1 = 0 from rfl, hz, List.replicate_succ] at hs
      simp only [List.cons_append, List.getElem?_cons_zero, Option.some.injEq] at hs
      subst hs
      rw [absPath_place]; rfl

/-- the hypotheses of `C105_found_false` hold of a text of the examples -/
theorem C105_found_nonvacuous : ∃ x, Usable Json.codec exCmdConfig ∧ exCmdConfig.numShatters < 2 ^ 32 ∧ IsSorter mergeSorter ∧ Indexer.create exCmdConfig = .ok x ∧
    FewPaths [absPath [47] [97], absPath [47] [98]] ∧ 23 * (blotsOf asciiUni exCmdConfig exText1).length < 2 ^ 63 ∧
    hasBlot asciiUni exCmdConfig exText1 (1 : UInt32).toNat = true := by
  obtain ⟨x, hx, _⟩ := create_rep (u := asciiUni) exCmd_usable
  exact ⟨x, exCmd_usable, by decide, mergeSorter_isSorter, hx, by decide, by decide +kernel, by decide +kernel⟩

end Dupi.Props
