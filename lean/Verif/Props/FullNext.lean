import Verif.Props.FullGet
import Verif.Props.Query
/-! # C105: what Next delivers when there are more documents than document ids

`Next` goes by the lists of ids.  It delivers the blots with at least two ids, consecutive repetitions left
out, and shows for each id the first document that was given it.  Two documents with the same text are so
passed over when they have the same id. -/

namespace Dupi.Props
open Spec

section
variable {srt : Sorter} (hsrt : IsSorter srt)
include hsrt

/-- what the calls of `Next` deliver, for any lists of ids -/
theorem lists_calls {x : Index} {n : Nat} {vals : Nat → Nat → List UInt32} {D : UInt32 → Bytes × UInt32 × UInt32} (hx : Holds srt x n vals D)
    (h0 : 0 < n) (hn : n < 2 ^ 32) (hs : ∀ j b, j < n → b < 65536 → 2 ≤ (vals j b).length → b * n + j < 2 ^ 32)
    (grow : Nat → Nat) (ff fuel : Nat) (hff : 2 ^ 32 ≤ ff) : ∀ (dsts : List (List Blot)) (q : QState) (E : List (Nat × Nat)),
    Query.Delivers x n vals D q E → (∀ jb ∈ E, jb.1 < n ∧ jb.2 < 65536 ∧ 2 ≤ (vals jb.1 jb.2).length) →
    (∀ dst ∈ dsts, ∀ b ∈ dst, b.docs = none) → E.length + n + 2 ^ 32 < fuel →
    ∃ rs, nextCalls grow x ff fuel q dsts = .ok rs ∧
      Enumerates (fun b => (vals (b.toNat % n) (b.toNat / n % 65536)).map fun id => Doc.ofMeta (D id)) (E.map (blotNum n)) dsts rs := by
  intro dsts
  induction dsts with
  | nil => intro q E _ _ _ _; exact ⟨[], rfl, trivial⟩
  | cons dst dsts ih =>
    intro q E hE hmem hnil hfuel
    have hgo := Query.toGo_le q
    obtain ⟨r, e1, e2⟩ := Query.nextLoop_delivers hsrt hx (by omega) grow hff hE 0 fuel dst
      (fun i b _ hb => hnil dst (by simp) b (List.mem_of_getElem? hb)) (Nat.zero_le _) (by omega)
    have hrest := e2.rest
    rw [Nat.sub_zero] at hrest
    obtain ⟨rs, k1, k2⟩ := ih r.state (E.drop dst.length) hrest (fun jb hjb => hmem jb (List.mem_of_mem_drop hjb))
      (fun d hd => hnil d (by simp [hd])) (by simp; omega)
    refine ⟨r :: rs, by simp only [nextCalls, Query.next, e1, bind, Except.bind, k1, pure, Except.pure], ?_, ?_, e2.len, ?_, ?_⟩
    · have := e2.count; simpa using this
    · rw [e2.eof, e2.count]
      cases E with
      | nil => simp
      | cons a E =>
        cases dst with
        | nil => simp
        | cons b dst => simp
    · intro i b hi hb
      rw [List.getElem?_map, Option.map_eq_some_iff] at hb
      obtain ⟨⟨j, bk⟩, hjb, rfl⟩ := hb
      obtain ⟨bl, b1, b2, b3⟩ := e2.new i j bk (by omega) hjb
      rw [Nat.zero_add] at b1
      refine ⟨bl, b1, b2, ?_⟩
      obtain ⟨m1, m2, m3⟩ := hmem _ (List.mem_of_getElem? hjb)
      simp only at m1 m2 m3
      have hs := hs j bk m1 m2 m3
      have hnum : (blotNum n (j, bk)).toNat = bk * n + j := by
        simp only [blotNum, UInt32.toNat_ofNat']; omega
      show bl.vis = (vals ((blotNum n (j, bk)).toNat % n) ((blotNum n (j, bk)).toNat / n % 65536)).map fun id => Doc.ofMeta (D id)
      have e1 : (bk * n + j) % n = j := by
        rw [Nat.mul_add_mod_self_right, Nat.mod_eq_of_lt m1]
      have e2 : (bk * n + j) / n % 65536 = bk := by
        rw [Nat.mul_comm, Nat.mul_add_div (by omega), Nat.div_eq_of_lt m1, Nat.add_zero, Nat.mod_eq_of_lt m2]
      rw [b3, hnum, e1, e2]
    · rw [← List.map_drop]; exact k2

/-- the same for a fresh query, with what the enumeration consists of -/
theorem lists_enumerated {x : Index} {n : Nat} {vals : Nat → Nat → List UInt32} {D : UInt32 → Bytes × UInt32 × UInt32} (hx : Holds srt x n vals D)
    (h0 : 0 < n) (hn : n < 2 ^ 32) (hs : ∀ j b, j < n → b < 65536 → 2 ≤ (vals j b).length → b * n + j < 2 ^ 32) {q : QState} (hq : x.startQuery = .ok q) :
    ∃ E : List UInt32, E.Nodup ∧ (∀ b : UInt32, b ∈ E ↔ b.toNat < n * 65536 ∧ 2 ≤ (vals (b.toNat % n) (b.toNat / n % 65536)).length) ∧
      E.Pairwise (fun a b => (vals (b.toNat % n) (b.toNat / n % 65536)).length ≤ (vals (a.toNat % n) (a.toNat / n % 65536)).length) ∧
      ∀ grow ff fuel dsts, (∀ dst ∈ dsts, ∀ b ∈ dst, b.docs = none) → 2 ^ 32 ≤ ff → E.length + n + 2 ^ 32 < fuel →
        ∃ rs, nextCalls grow x ff fuel q dsts = .ok rs ∧
          Enumerates (fun b => (vals (b.toNat % n) (b.toNat / n % 65536)).map fun id => Doc.ofMeta (D id)) E dsts rs := by
  obtain ⟨q', k1, k2, _, _⟩ := Query.startQuery_rep hsrt hx h0 hn
  cases k1.symm.trans hq
  obtain ⟨E, e1, e2, e3, e4⟩ := Query.delivers hsrt hx hn _ q _ k2 (Query.allDup_nodup hsrt hx) rfl
  have hmem : ∀ jb ∈ E, jb.1 < n ∧ jb.2 < 65536 ∧ 2 ≤ (vals jb.1 jb.2).length := by
    rintro ⟨j, b⟩ hjb
    exact (Query.allDup_mem hsrt hx j b).mp ((e3 j b).mp hjb)
  have hnum : ∀ jb ∈ E, (blotNum n jb).toNat = jb.2 * n + jb.1 := by
    intro jb hjb
    obtain ⟨m1, m2, m3⟩ := hmem jb hjb
    have := hs _ _ m1 m2 m3
    simp only [blotNum, UInt32.toNat_ofNat']; omega
  have split : ∀ j b, j < n → b < 65536 → (b * n + j) % n = j ∧ (b * n + j) / n % 65536 = b := by
    intro j b hj hb
    constructor
    · rw [Nat.mul_add_mod_self_right, Nat.mod_eq_of_lt hj]
    · rw [Nat.mul_comm, Nat.mul_add_div (by omega), Nat.div_eq_of_lt hj, Nat.add_zero, Nat.mod_eq_of_lt hb]
  have hlen : ∀ jb ∈ E, vals ((blotNum n jb).toNat % n) ((blotNum n jb).toNat / n % 65536) = vals jb.1 jb.2 := by
    intro jb hjb
    obtain ⟨m1, m2, m3⟩ := hmem jb hjb
    obtain ⟨s1, s2⟩ := split jb.1 jb.2 m1 m2
    rw [hnum jb hjb, s1, s2]
  refine ⟨E.map (blotNum n), ?_, ?_, ?_, ?_⟩
  · rw [List.Nodup, List.pairwise_map]
    refine List.Pairwise.imp_of_mem ?_ e2
    intro a b ha hb hne he
    apply hne
    have he := congrArg UInt32.toNat he
    rw [hnum a ha, hnum b hb] at he
    obtain ⟨m1, m2, _⟩ := hmem a ha
    obtain ⟨m3, m4, _⟩ := hmem b hb
    obtain ⟨s1, s2⟩ := split a.1 a.2 m1 m2
    obtain ⟨s3, s4⟩ := split b.1 b.2 m3 m4
    rw [he] at s1 s2
    exact Prod.ext (s1.symm.trans s3) (s2.symm.trans s4)
  · intro b
    constructor
    · intro hb
      obtain ⟨jb, hjb, rfl⟩ := List.mem_map.mp hb
      obtain ⟨m1, m2, m3⟩ := hmem jb hjb
      refine ⟨?_, by rw [hlen jb hjb]; exact m3⟩
      rw [hnum jb hjb]
      have := Nat.mul_le_mul_right n (show jb.2 ≤ 65535 by omega)
      omega
    · rintro ⟨hb1, hb2⟩
      refine List.mem_map.mpr ⟨(b.toNat % n, b.toNat / n % 65536), ?_, ?_⟩
      · rw [e3]
        exact (Query.allDup_mem hsrt hx _ _).mpr ⟨Nat.mod_lt _ h0, Nat.mod_lt _ (by omega), hb2⟩
      · apply UInt32.toNat_inj.mp
        simp only [blotNum, UInt32.toNat_ofNat']
        have e : b.toNat / n % 65536 * n + b.toNat % n = b.toNat % (n * 65536) := by
          rw [Nat.mod_mul, Nat.add_comm, Nat.mul_comm]
        rw [e, Nat.mod_eq_of_lt hb1, Nat.mod_eq_of_lt b.toNat_lt]
  · rw [List.pairwise_map]
    refine List.Pairwise.imp_of_mem ?_ e4
    intro a b ha hb hle
    rw [hlen a ha, hlen b hb]; exact hle
  · intro grow ff fuel dsts hnil hff hfuel
    exact lists_calls hsrt hx h0 hn hs grow ff fuel hff dsts q E e1 hmem hnil (by simpa using hfuel)
end

/-- the document shown for an id: the first that was given it, or, for 0, the root directory -/
def firstWith (docs : List Document) (id : UInt32) : Doc :=
  if id = 0 then ⟨[47], 0, 0, none⟩ else
    match docs[id.toNat - 1]? with
    | some s => s.shown
    | none => ⟨[], 0, 0, none⟩

/-- what `Next` makes of such an index, called with slices of nil `Docs` -/
def ListsFull (u : Uni) (J : CfgCodec) (srt : Sorter) (c : Config) (docs : List Document) (d : Dir) : Prop :=
  ∃ y q, Index.open J srt d = .ok y ∧ y.startQuery = .ok q ∧
    ∃ E : List UInt32, E.Nodup ∧ (∀ b : UInt32, b ∈ E ↔ b.toNat < numBuckets c ∧ 2 ≤ (compress (idsUnder u c docs b.toNat)).length) ∧
      E.Pairwise (fun a b => (compress (idsUnder u c docs b.toNat)).length ≤ (compress (idsUnder u c docs a.toNat)).length) ∧
      ∀ grow ff fuel dsts, (∀ dst ∈ dsts, ∀ b ∈ dst, b.docs = none) → 2 ^ 32 ≤ ff → E.length + c.numShards.toNat + 2 ^ 32 < fuel →
        ∃ rs, nextCalls grow y ff fuel q dsts = .ok rs ∧
          Enumerates (fun b => (compress (idsUnder u c docs b.toNat)).map (firstWith docs)) E dsts rs

theorem full_lists {u : Uni} {J : CfgCodec} {c : Config} (hU : Usable J c) {srt : Sorter} (hsrt : IsSorter srt) {d : Dir} {docs : List Document}
    (h : DirRep u J c d docs) (hp : FewPaths (docs.map fun s => s.path)) (hb : 23 * numBlots u c docs < 2 ^ 63) (hr : RootedLow docs) :
    ListsFull u J srt c docs d := by
  obtain ⟨y, h1, h2, h3⟩ := full_open hU srt h hp hb hr
  have hn := hU.shards
  have hn' := hU.shardsSmall
  obtain ⟨q, k1, _⟩ := Query.startQuery_rep hsrt h3 (by omega) (by omega)
  have := lists_enumerated hsrt h3 (by omega) (by omega) (by
    intro j b hj hb h2
    refine bucket_small (u := u) (docs := docs) hj hb fun e => ?_
    unfold bucketIds at e
    rw [e] at h2
    simp [compress] at h2) k1
  simp only [bucket_ids] at this
  have hD : ∀ b : UInt32, ((compress (idsUnder u c docs b.toNat)).map fun id => Doc.ofMeta (firstMeta docs id)) =
      (compress (idsUnder u c docs b.toNat)).map (firstWith docs) := by
    intro b
    refine List.map_congr_left fun id _ => ?_
    unfold firstMeta firstWith metaOf
    split
    · rfl
    · cases docs[id.toNat - 1]? <;> rfl
  simp only [hD] at this
  exact ⟨y, q, h1, k1, this⟩

/-- **C105, what Next delivers.**  Any number of documents is added to a new index.  Whatever the run,
repeated calls of `Next` deliver the blots with at least two ids after immediate repetitions are left out,
each once, most ids first, with the first document of each id, and then the end. -/
theorem C105_next_partial {u : Uni} {J : CfgCodec} {c : Config} (hU : Usable J c) (hw : c.numShatters < 2 ^ 32) {srt : Sorter} (hsrt : IsSorter srt)
    {x : Indexer} (hx : Indexer.create c = .ok x) (cwd : Bytes) (new : List Doc) (hp : FewPaths ((added cwd new).map fun s => s.path))
    (hb : 23 * numBlots u c (added cwd new) < 2 ^ 63) (hs : FewUnder u c (added cwd new)) :
    (∃ d, Indexer.Session u J cwd x new Dir.empty d) ∧
      ∀ d, Indexer.Session u J cwd x new Dir.empty d → ListsFull u J srt c (added cwd new) d := by
  obtain ⟨y, g1, g2⟩ := create_rep (u := u) hU
  cases g1.symm.trans hx
  refine ⟨full_exists hU g2.ring cwd new hw (by simpa using hs.short) (by simpa using hp) (.inl rfl), fun d hd => ?_⟩
  have := full_rep hU g2.ring cwd new hw (by simpa using hs.short) (by simpa using hp) (.inl rfl) hd
  rw [List.nil_append] at this
  exact full_lists hU hsrt this hp hb (Rooted.low fun s hs => added_rooted cwd new s hs)

/-- The same, for any number of documents added to an index whose ids are not used up. -/
theorem C105_next_appended_partial {u : Uni} {J : CfgCodec} {c : Config} (hU : Usable J c) (hw : c.numShatters < 2 ^ 32) {srt : Sorter}
    (hsrt : IsSorter srt) {h : Sessions} {d0 : Dir} (hh : History u J c h d0) (hf : Fits u c (documents h)) {x : Indexer}
    (hx : Indexer.open J d0 = .ok x) (cwd : Bytes) (new : List Doc) (hp : FewPaths ((documents h ++ added cwd new).map fun s => s.path))
    (hb : 23 * numBlots u c (documents h ++ added cwd new) < 2 ^ 63) (hs : FewUnder u c (documents h ++ added cwd new)) :
    (∃ d, Indexer.Session u J cwd x new d0 d) ∧
      ∀ d, Indexer.Session u J cwd x new d0 d → ListsFull u J srt c (documents h ++ added cwd new) d := by
  have h0 := hh.rep hU hf
  obtain ⟨y, g1, g2⟩ := open_rep hU h0 hf
  cases g1.symm.trans hx
  refine ⟨full_exists hU g2.ring cwd new hw hs.short hp (.inr h0.cfg), fun d hd => ?_⟩
  refine full_lists hU hsrt (full_rep hU g2.ring cwd new hw hs.short hp (.inr h0.cfg) hd) hp hb (Rooted.low fun s hs => ?_)
  rcases List.mem_append.mp hs with h | h
  · exact documents_rooted _ s h
  · exact added_rooted cwd new s h

/-- **C105 is false, as seen by Next.**  A text is added, then `2 ^ 32 - 1` documents without text, then the
same text again under another path.  The two are duplicates, and nothing else is in the index; `Next`
says at once that it has come to the end, and delivers nothing. -/
theorem C105_next_false {u : Uni} {J : CfgCodec} {c : Config} (hU : Usable J c) (hw : c.numShatters < 2 ^ 32) {srt : Sorter} (hsrt : IsSorter srt)
    {x : Indexer} (hx : Indexer.create c = .ok x) (cwd : Bytes) (p p' dat : Bytes) (hp : FewPaths [absPath cwd p, absPath cwd p'])
    (hb : 23 * (2 * (blotsOf u c dat).length) < 2 ^ 63) :
    let new := ⟨p, 0, 1, some dat⟩ :: (List.replicate (2 ^ 32 - 1) ⟨p, 0, 0, some []⟩ ++ [⟨p', 0, 1, some dat⟩])
    (∃ d, Indexer.Session u J cwd x new Dir.empty d) ∧
      ∀ d, Indexer.Session u J cwd x new Dir.empty d → ∃ y q, Index.open J srt d = .ok y ∧ y.startQuery = .ok q ∧
        ∀ grow ff fuel dst, (∀ b ∈ dst, b.docs = none) → dst ≠ [] → 2 ^ 32 ≤ ff → c.numShards.toNat + 2 ^ 32 < fuel →
          ∃ r, Query.next grow y ff fuel q dst = .ok r ∧ r.n = 0 ∧ r.eof = true := by
  intro new
  have hadd : added cwd new = ⟨placeName (place cwd p), 0, 1, dat⟩ ::
      (List.replicate (2 ^ 32 - 1) ⟨placeName (place cwd p), 0, 0, []⟩ ++ [⟨placeName (place cwd p'), 0, 1, dat⟩]) := by
    simp only [new, added, List.map_append, List.map_replicate, List.map_cons, List.map_nil, Option.getD_some]
  have he := blotsOf_nil u c
  have hno : ∀ b, hasBlot u c [] b = false := by intro b; simp [hasBlot, he]
  have hids : ∀ b, idsUnder u c (added cwd new) b = if hasBlot u c dat b then [1, 1] else [] := by
    intro b
    have h0 : ∀ (n i : Nat), idsWith (fun s => hasBlot u c s.dat b) i (List.replicate n ⟨placeName (place cwd p), 0, 0, []⟩) = [] := by
      intro n
      induction n with
      | zero => intro i; rfl
      | succ n ih => intro i; rw [List.replicate_succ, idsWith, if_neg (by simp [hno]), ih]
    have e : idsUnder u c (added cwd new) b = idsWith (fun s => hasBlot u c s.dat b) 1 (added cwd new) := (idsWith_zip (fun s => hasBlot u c s.dat b) (added cwd new) 1).symm
    rw [e, hadd, idsWith, idsWith_append, h0, List.nil_append, List.length_replicate]
    simp only [idsWith]
    have : UInt32.ofNat (1 + 1 + (2 ^ 32 - 1)) = 1 := UInt32.toNat_inj.mp (by rw [UInt32.toNat_ofNat', UInt32.toNat_one]; omega)
    rw [this]
    by_cases hd : hasBlot u c dat b = true
    · simp only [hd, if_true]; rfl
    · simp only [hd]; rfl
  have hc : ∀ b, (compress (idsUnder u c (added cwd new) b)).length ≤ 1 := by
    intro b; rw [hids]; split <;> simp [compress]
  have hp' : FewPaths ((added cwd new).map fun s => s.path) := by
    refine Fnames.FewPaths.mono ?_ hp
    intro s hs
    rw [hadd] at hs
    simp only [List.map_append, List.map_replicate, List.mem_append, List.mem_replicate, List.map_cons, List.map_nil, List.mem_cons, List.not_mem_nil, or_false] at hs
    rcases hs with rfl | ⟨_, rfl⟩ | rfl
    · rw [absPath_place]; simp
    · rw [absPath_place]; simp
    · rw [← absPath_place cwd p']; simp
  have hnb : numBlots u c (added cwd new) = 2 * (blotsOf u c dat).length := by
    have : added cwd new = [⟨placeName (place cwd p), 0, 1, dat⟩] ++
      (List.replicate (2 ^ 32 - 1) ⟨placeName (place cwd p), 0, 0, []⟩ ++ [⟨placeName (place cwd p'), 0, 1, dat⟩]) := hadd
    rw [this, numBlots_append, numBlots_append]
    simp only [numBlots, List.map_replicate, he, List.length_nil, List.sum_replicate, smul_eq_mul, Nat.mul_zero, Nat.zero_add, List.map_cons, List.map_nil,
      List.sum_cons, List.sum_nil, Nat.add_zero]
    omega
  obtain ⟨g1, g2⟩ := C105_next_partial (u := u) hU hw hsrt hx cwd new hp' (by rw [hnb]; exact hb) (fun b _ => by have := hc b; omega)
  refine ⟨g1, fun d hd' => ?_⟩
  obtain ⟨y, q, k1, k2, E, e1, e2, e3, e4⟩ := g2 d hd'
  refine ⟨y, q, k1, k2, fun grow ff fuel dst hnil hne hff hfuel => ?_⟩
  have hE : E = [] := by
    cases E with
    | nil => rfl
    | cons b E =>
      have := ((e2 b).mp (by simp)).2
      have := hc b.toNat
      omega
  subst hE
  obtain ⟨rs, r1, r2⟩ := e4 grow ff fuel [dst] (by simpa using hnil) hff (by simpa using hfuel)
  simp only [nextCalls, bind, Except.bind, pure, Except.pure] at r1
  cases hr : Query.next grow y ff fuel q dst with
  | error e => rw [hr] at r1; simp at r1
  | ok r =>
    rw [hr] at r1
    simp only [Except.ok.injEq] at r1
    subst r1
    refine ⟨r, rfl, ?_, ?_⟩
    · have := r2.1; simpa using this
    · have h1 := r2.1
      have h2 := r2.2.1
      simp at h1
      rw [h2]
      first
        | exact ⟨h1, hne⟩
        | (simp [hne])

/-- the hypotheses of `C105_next_false` hold of a text of the examples, which has a blot -/
theorem C105_next_nonvacuous : ∃ x, Usable Json.codec exCmdConfig ∧ exCmdConfig.numShatters < 2 ^ 32 ∧ IsSorter mergeSorter ∧ Indexer.create exCmdConfig = .ok x ∧
    FewPaths [absPath [47] [97], absPath [47] [98]] ∧ 23 * (2 * (blotsOf asciiUni exCmdConfig exText1).length) < 2 ^ 63 ∧
    hasBlot asciiUni exCmdConfig exText1 (1 : UInt32).toNat = true := by
  obtain ⟨x, hx, _⟩ := create_rep (u := asciiUni) exCmd_usable
  exact ⟨x, exCmd_usable, by decide, mergeSorter_isSorter, hx, by decide, by decide +kernel, by decide +kernel⟩

end Dupi.Props
