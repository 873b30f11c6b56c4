import Verif.Proof.Index
import Verif.Proof.Lower
/-! # Queries: C10 (second half), C21 – C25, C29, C45 -/

namespace Dupi.Props
open Spec

/-- An index `x` opened after the sessions `h`, and a query started on it. -/
structure Reading (u : Uni) (J : CfgCodec) (srt : Sorter) (c : Config) (h : Sessions) (x : Index) (q : QState) : Prop where
  ex : ∃ d, History u J c h d ∧ Index.open J srt d = .ok x
  start : x.startQuery = .ok q

section
variable {u : Uni} {J : CfgCodec} {srt : Sorter} {c : Config} (hU : Usable J c) (hsrt : IsSorter srt)

include hU hsrt

/-- what a reading state is about -/
theorem Reading.rep {h : Sessions} {x : Index} {q : QState} (hr : Reading u J srt c h x q) (hf : Fits u c (documents h)) :
    Holds srt x c.numShards.toNat (bucketIds u c (documents h)) (metaOf (documents h)) ∧
      Query.QInv x c.numShards.toNat (bucketIds u c (documents h)) q (Query.allDup x (bucketIds u c (documents h))) ∧ q.nilCount = 0 ∧
      q.n = UInt32.ofNat c.numShards.toNat ∧ x.config = c ∧ Dmd.numDocs x.dmd = (documents h).length + 1 := by
  obtain ⟨d, h1, h2⟩ := hr.ex
  obtain ⟨y, g1, g2, g3, g4⟩ := openIndex_rep hU srt (History.rep hU h1 hf) hf (documents_rooted h)
  rw [h2] at g1; injection g1 with g1; subst g1
  have hn := hU.shards
  have hn' := hU.shardsSmall
  obtain ⟨q', k1, k2, k3, k4⟩ := Query.startQuery_rep hsrt g3 (by omega) (by omega)
  rw [hr.start] at k1; injection k1 with k1; subst k1
  exact ⟨g3, k2, k3, k4, g2, g4⟩

/-- After any history of sessions the index can be opened and queried. -/
theorem reading_exists {h : Sessions} {d : Dir} (hd : History u J c h d) (hf : Fits u c (documents h)) :
    ∃ x q, Index.open J srt d = .ok x ∧ Reading u J srt c h x q := by
  obtain ⟨x, g1, g2, g3, g4⟩ := openIndex_rep hU srt (History.rep hU hd hf) hf (documents_rooted h)
  have hn := hU.shards
  have hn' := hU.shardsSmall
  obtain ⟨q, k1, _⟩ := Query.startQuery_rep hsrt g3 (by omega) (by omega)
  exact ⟨x, q, g1, ⟨d, hd, g1⟩, k1⟩

end

theorem bucketIds_found (u : Uni) (c : Config) (docs : List Document) (hl : docs.length + 1 < 2 ^ 32) (b : Nat) :
    (bucketIds u c docs (b % c.numShards.toNat) (b / c.numShards.toNat % 65536)).map (fun id => Doc.ofMeta (metaOf docs id)) =
      (found u c docs b).map Document.shown := by
  have e : b / c.numShards.toNat % 65536 * c.numShards.toNat + b % c.numShards.toNat = b % (c.numShards.toNat * 65536) := by
    rw [Nat.mod_mul, Nat.add_comm, Nat.mul_comm]
  have hp : (fun s : Document => hasBlot u c s.dat (b / c.numShards.toNat % 65536 * c.numShards.toNat + b % c.numShards.toNat)) =
      fun s : Document => hasBlot u c s.dat b := by
    funext s; unfold hasBlot; rw [e]; simp only [Nat.mod_mod]
  have := metaOf_ids (fun s => hasBlot u c s.dat b) docs [] (by simpa using hl)
  simp only [List.nil_append, List.length_nil, Nat.zero_add] at this
  unfold bucketIds found
  rw [hp]
  have h2 := congrArg (List.map Doc.ofMeta) this
  rw [List.map_map, List.map_map] at h2
  exact h2

theorem bucketIds_length_found (u : Uni) (c : Config) (docs : List Document) (hl : docs.length + 1 < 2 ^ 32) (b : Nat) :
    (bucketIds u c docs (b % c.numShards.toNat) (b / c.numShards.toNat % 65536)).length = (found u c docs b).length := by
  have := congrArg List.length (bucketIds_found u c docs hl b)
  simpa using this

section
variable {u : Uni} {J : CfgCodec} {srt : Sorter} {c : Config} (hU : Usable J c) (hsrt : IsSorter srt)
include hU hsrt

/-- **C21.**  After any history of create and append sessions, on a query in any state `q'`, `Get` of any 32-bit blot with
nil Docs returns precisely the documents one of whose blots falls in the same bucket, in the order they were added,
each once, each with its absolute path, start and end.  (`grow`: whatever `append` allocates; the loop makes at most one
pass more than there are documents.) -/
theorem C21_get {h : Sessions} {x : Index} {q : QState} (hr : Reading u J srt c h x q) (hf : Fits u c (documents h))
    (grow : Nat → Nat) (b : UInt32) (fuel : Nat) (hfuel : (documents h).length < fuel) {q' : QState} (hq : q'.n = q.n) :
    ∃ r, Query.get grow x fuel q' ⟨b, none⟩ = .ok r ∧ r.blot = b ∧ r.vis = (found u c (documents h) b.toNat).map Document.shown := by
  obtain ⟨h1, _, _, h2, _⟩ := hr.rep hU hsrt hf
  have hn := hU.shards
  have hn' := hU.shardsSmall
  obtain ⟨hz, s, rs, g1, g2, g3, g4⟩ := Query.get_route h1 (by omega) (by omega) b (hq.trans h2)
  obtain ⟨r, k1, k2, k3, _⟩ := Query.getLoop_unlim grow _ fuel rs ⟨b, none⟩ g3 g4
    (Nat.lt_of_le_of_lt (idsWith_length _ _ _) hfuel)
  refine ⟨r, ?_, k2, ?_⟩
  · simp only [Query.get, if_neg hz, g1, g2, bind, Except.bind, Option.isSome_none]; exact k1
  · rw [k3, ← bucketIds_found u c _ hf.ids]; rfl

/-- **C22.**  With a non-nil slice of `v.length` elements and room for `s.length` more, `Get` keeps the first ones and fills
as many of the others as there are matching documents, in order (in place: their `Dat` stays as it was), and leaves the
capacity alone. -/
theorem C22_get_limited {h : Sessions} {x : Index} {q : QState} (hr : Reading u J srt c h x q) (hf : Fits u c (documents h))
    (grow : Nat → Nat) (b : UInt32) (v s : List Doc) (fuel : Nat) (hfuel : (documents h).length < fuel) {q' : QState} (hq : q'.n = q.n) :
    let m := found u c (documents h) b.toNat
    Query.get grow x fuel q' ⟨b, some ⟨v, s⟩⟩ =
      .ok ⟨b, some ⟨v ++ List.zipWith (fun d m => ⟨m.path, m.start, m.stop, d.dat⟩) s m, s.drop m.length⟩⟩ := by
  intro m
  obtain ⟨h1, _, _, h2, _⟩ := hr.rep hU hsrt hf
  have hn := hU.shards
  have hn' := hU.shardsSmall
  obtain ⟨hz, sh, rs, g1, g2, g3, g4⟩ := Query.get_route h1 (by omega) (by omega) b (hq.trans h2)
  have k1 := Query.getLoop_lim grow b _ fuel rs v s g3 g4 (Nat.lt_of_le_of_lt (idsWith_length _ _ _) hfuel)
  simp only [Query.get, if_neg hz, g1, g2, bind, Except.bind, Option.isSome_some]
  rw [k1, bucketIds_length_found u c _ hf.ids]
  congr 4
  have := bucketIds_found u c _ hf.ids b.toNat
  generalize bucketIds u c (documents h) (b.toNat % c.numShards.toNat) (b.toNat / c.numShards.toNat % 65536) = ids at this
  refine congrArg (v ++ ·) ?_
  show _ = List.zipWith _ s (found u c (documents h) b.toNat)
  generalize found u c (documents h) b.toNat = fs at this
  clear k1 g3 g4 m
  induction s generalizing ids fs with
  | nil => simp
  | cons d s ih =>
    cases ids with
    | nil => cases fs with
      | nil => rfl
      | cons => simp at this
    | cons i ids => cases fs with
      | nil => simp at this
      | cons f fs =>
        simp only [List.map_cons, List.cons.injEq] at this
        rw [List.zipWith_cons_cons, List.zipWith_cons_cons, ih ids fs this.2]
        congr 1
        have := this.1
        simp only [Doc.ofMeta, Document.shown, Doc.mk.injEq] at this
        simp only [Doc.fill, this]

/-- **C10**, second half.  A document whose data is not UTF-8 is in no bucket: it is not among the documents found. -/
theorem C10_never_found {h : Sessions} {x : Index} {q : QState} (hr : Reading u J srt c h x q) (hf : Fits u c (documents h))
    (s : Document) (hs : ¬ IsText s.dat) (grow : Nat → Nat) (b : UInt32) (fuel : Nat) (hfuel : (documents h).length < fuel) :
    s ∉ found u c (documents h) b.toNat ∧
    ∃ r, Query.get grow x fuel q ⟨b, none⟩ = .ok r ∧ r.vis = ((documents h).filter fun t => (text t.dat).isSome && hasBlot u c t.dat b.toNat).map Document.shown := by
  have key : ∀ t : Document, text t.dat = none → hasBlot u c t.dat b.toNat = false := by
    intro t ht
    simp [hasBlot, blotsOf, blots, wordChars, ht]
  refine ⟨?_, ?_⟩
  · intro hc
    have := (List.mem_filter.mp hc).2
    rw [key s (by cases ht : text s.dat with | none => rfl | some cs => exact absurd ⟨cs, text_some ht⟩ hs)] at this; simp at this
  · obtain ⟨r, k1, _, k3⟩ := C21_get hU hsrt hr hf grow b fuel hfuel rfl
    refine ⟨r, k1, ?_⟩
    rw [k3]
    congr 1
    unfold found
    apply List.filter_congr
    intro t _
    cases hv : text t.dat with
    | some cs => simp
    | none => simp [key t hv]

end

/-- Consecutive calls of `Next`, one for each destination slice. -/
def nextCalls (grow : Nat → Nat) (x : Index) (ff fuel : Nat) : QState → List (List Blot) → M (List Query.NextResult)
  | _, [] => .ok []
  | q, dst :: dsts => do
    let r ← Query.next grow x ff fuel q dst
    let rs ← nextCalls grow x ff fuel r.state dsts
    return r :: rs

/-- What the calls should return when `E` lists the blots still to be delivered: each call the next ones, as many as
there is room for, each with all its documents; `io.EOF` iff there are none left. -/
def Enumerates (docsOf : UInt32 → List Doc) : List UInt32 → List (List Blot) → List Query.NextResult → Prop
  | _, [], [] => True
  | E, dst :: dsts, r :: rs =>
    r.n = min E.length dst.length ∧ (r.eof = true ↔ E = [] ∧ dst ≠ []) ∧ r.dst.length = dst.length ∧
    (∀ (i : Nat) b, i < dst.length → E[i]? = some b → ∃ bl, r.dst[i]? = some bl ∧ bl.blot = b ∧ bl.vis = docsOf b) ∧
    Enumerates docsOf (E.drop dst.length) dsts rs
  | _, _, _ => False

theorem hasBlot_small {u : Uni} {c : Config} {dat : Bytes} {m : Nat} (hm : m < c.numShards.toNat * 65536) (h : hasBlot u c dat m = true) : m < 2 ^ 32 := by
  simp only [hasBlot, List.any_eq_true, decide_eq_true_eq] at h
  obtain ⟨b, _, hb⟩ := h
  rw [Nat.mod_eq_of_lt hm] at hb
  have := Nat.mod_le b.toNat (c.numShards.toNat * 65536)
  have := b.toNat_lt
  omega

theorem bucket_small {u : Uni} {c : Config} {docs : List Document} {j q : Nat} (hj : j < c.numShards.toNat) (hq : q < 65536)
    (h : bucketIds u c docs j q ≠ []) : q * c.numShards.toNat + j < 2 ^ 32 := by
  have hm : q * c.numShards.toNat + j < c.numShards.toNat * 65536 := by
    have := Nat.mul_le_mul_right c.numShards.toNat (show q ≤ 65535 by omega)
    omega
  have : ∃ s : Document, hasBlot u c s.dat (q * c.numShards.toNat + j) = true := by
    unfold bucketIds at h
    generalize 1 = i at h
    induction docs generalizing i with
    | nil => simp [idsWith] at h
    | cons s docs ih =>
      rw [idsWith] at h
      split at h
      · rename_i hs; exact ⟨s, hs⟩
      · exact ih _ h
  obtain ⟨s, hs⟩ := this
  exact hasBlot_small hm hs

theorem nodup_length (m : Nat) : ∀ l : List Nat, l.Nodup → (∀ a ∈ l, a < m) → l.length ≤ m := by
  induction m with
  | zero =>
    intro l _ h
    cases l with
    | nil => simp
    | cons a l => have := h a (by simp); omega
  | succ m ih =>
    intro l hn h
    by_cases hm : m ∈ l
    · have := ih (l.erase m) (hn.erase m) (fun a ha => by
        have h1 := h a (List.mem_of_mem_erase ha)
        have h2 : a ≠ m := (hn.mem_erase_iff.mp ha).1
        omega)
      rw [List.length_erase_of_mem hm] at this
      omega
    · have := ih l hn (fun a ha => by
        have h1 := h a ha
        have h2 : a ≠ m := fun e => hm (e ▸ ha)
        omega)
      omega

theorem nodup_subset_length {α : Type} [DecidableEq α] : ∀ (l m : List α), l.Nodup → (∀ a ∈ l, a ∈ m) → l.length ≤ m.length := by
  intro l
  induction l with
  | nil => simp
  | cons a l ih =>
    intro m hn hs
    have ha := hs a (by simp)
    rw [List.nodup_cons] at hn
    have := ih (m.erase a) hn.2 (fun b hb => (List.mem_erase_of_ne (by rintro rfl; exact hn.1 hb)).mpr (hs b (by simp [hb])))
    rw [List.length_erase_of_mem ha] at this
    have := List.length_pos_of_mem ha
    simp; omega

theorem nodup32_length (E : List UInt32) (h : E.Nodup) : E.length ≤ 2 ^ 32 := by
  have hn : (E.map UInt32.toNat).Nodup := by
    rw [List.Nodup, List.pairwise_map]; exact h.imp fun hne he => hne (UInt32.toNat_inj.mp he)
  have := nodup_length (2 ^ 32) _ hn (by
    intro a ha
    obtain ⟨b, _, rfl⟩ := List.mem_map.mp ha
    exact b.toNat_lt)
  simpa using this

/-- number of a shard's bucket -/
def blotNum (n : Nat) (jb : Nat × Nat) : UInt32 := UInt32.ofNat (jb.2 * n + jb.1)

section
variable {u : Uni} {J : CfgCodec} {srt : Sorter} {c : Config} (hU : Usable J c) (hsrt : IsSorter srt)
include hU hsrt

theorem nextCalls_spec {h : Sessions} {x : Index} (hx : Holds srt x c.numShards.toNat (bucketIds u c (documents h)) (metaOf (documents h)))
    (hf : Fits u c (documents h)) (grow : Nat → Nat) (ff fuel : Nat) (hff : 2 ^ 32 ≤ ff) : ∀ (dsts : List (List Blot)) (q : QState) (E : List (Nat × Nat)),
    Query.Delivers x c.numShards.toNat (bucketIds u c (documents h)) (metaOf (documents h)) q E →
    (∀ jb ∈ E, jb.1 < c.numShards.toNat ∧ jb.2 < 65536 ∧ 2 ≤ (bucketIds u c (documents h) jb.1 jb.2).length) →
    (∀ dst ∈ dsts, ∀ b ∈ dst, b.docs = none) → E.length + c.numShards.toNat + 2 ^ 32 < fuel →
    ∃ rs, nextCalls grow x ff fuel q dsts = .ok rs ∧
      Enumerates (fun b => (found u c (documents h) b.toNat).map Document.shown) (E.map (blotNum c.numShards.toNat)) dsts rs := by
  intro dsts
  have hn := hU.shards
  have hn' := hU.shardsSmall
  induction dsts with
  | nil => intro q E _ _ _ _; exact ⟨[], rfl, trivial⟩
  | cons dst dsts ih =>
    intro q E hE hmem hnil hfuel
    have hgo := Query.toGo_le q
    obtain ⟨r, e1, e2⟩ := Query.nextLoop_delivers hsrt hx (by omega) grow hff hE 0 fuel dst
      (fun i b _ hb => hnil dst (by simp) b (List.mem_of_getElem? hb)) (Nat.zero_le _) (by omega)
    have hrest := e2.rest
    rw [Nat.sub_zero] at hrest
    obtain ⟨rs, k1, k2⟩ := ih r.state (E.drop dst.length) hrest (fun jb hjb => hmem jb (List.mem_of_mem_drop hjb))
      (fun d hd => hnil d (by simp [hd])) (by simp; omega)
    refine ⟨r :: rs, by simp only [nextCalls, Query.next, e1, bind, Except.bind, k1, pure, Except.pure], ?_, ?_, e2.len, ?_, ?_⟩
    · have := e2.count; simpa using this
    · rw [e2.eof, e2.count]
      cases E with
      | nil => simp
      | cons a E =>
        cases dst with
        | nil => simp
        | cons b dst => simp
    · intro i b hi hb
      rw [List.getElem?_map, Option.map_eq_some_iff] at hb
      obtain ⟨⟨j, bk⟩, hjb, rfl⟩ := hb
      obtain ⟨bl, b1, b2, b3⟩ := e2.new i j bk (by omega) hjb
      rw [Nat.zero_add] at b1
      refine ⟨bl, b1, b2, ?_⟩
      obtain ⟨m1, m2, m3⟩ := hmem _ (List.mem_of_getElem? hjb)
      simp only at m1 m2 m3
      have hs := bucket_small m1 m2 (by intro hc; rw [hc] at m3; simp at m3)
      have hnum : (blotNum c.numShards.toNat (j, bk)).toNat = bk * c.numShards.toNat + j := by
        simp only [blotNum, UInt32.toNat_ofNat']; omega
      show bl.vis = (found u c (documents h) (blotNum c.numShards.toNat (j, bk)).toNat).map Document.shown
      rw [b3, ← bucketIds_found u c _ hf.ids, hnum]
      have e1 : (bk * c.numShards.toNat + j) % c.numShards.toNat = j := by
        rw [Nat.mul_add_mod_self_right, Nat.mod_eq_of_lt m1]
      have e2 : (bk * c.numShards.toNat + j) / c.numShards.toNat % 65536 = bk := by
        rw [Nat.mul_comm, Nat.mul_add_div (by omega), Nat.div_eq_of_lt m1, Nat.add_zero, Nat.mod_eq_of_lt m2]
      rw [e1, e2]
    · rw [← List.map_drop]; exact k2

/-- the enumeration of a fresh query, as shards and buckets -/
theorem enumeration {h : Sessions} {x : Index} {q : QState} (hr : Reading u J srt c h x q) (hf : Fits u c (documents h)) :
    ∃ E, Query.Delivers x c.numShards.toNat (bucketIds u c (documents h)) (metaOf (documents h)) q E ∧
      (∀ jb ∈ E, jb.1 < c.numShards.toNat ∧ jb.2 < 65536 ∧ 2 ≤ (bucketIds u c (documents h) jb.1 jb.2).length) ∧
      (E.map (blotNum c.numShards.toNat)).Nodup ∧
      (∀ b : UInt32, b ∈ E.map (blotNum c.numShards.toNat) ↔ b.toNat < numBuckets c ∧ 2 ≤ (found u c (documents h) b.toNat).length) ∧
      (E.map (blotNum c.numShards.toNat)).Pairwise (fun a b => (found u c (documents h) b.toNat).length ≤ (found u c (documents h) a.toNat).length) := by
  obtain ⟨h1, h2, h3, h4, _⟩ := hr.rep hU hsrt hf
  have hn := hU.shards
  have hn' := hU.shardsSmall
  obtain ⟨E, e1, e2, e3, e4⟩ := Query.delivers hsrt h1 (by omega) _ q _ h2 (Query.allDup_nodup hsrt h1) rfl
  have hmem : ∀ jb ∈ E, jb.1 < c.numShards.toNat ∧ jb.2 < 65536 ∧ 2 ≤ (bucketIds u c (documents h) jb.1 jb.2).length := by
    rintro ⟨j, b⟩ hjb
    exact (Query.allDup_mem hsrt h1 j b).mp ((e3 j b).mp hjb)
  have hnum : ∀ jb ∈ E, (blotNum c.numShards.toNat jb).toNat = jb.2 * c.numShards.toNat + jb.1 := by
    intro jb hjb
    obtain ⟨m1, m2, m3⟩ := hmem jb hjb
    have := bucket_small m1 m2 (by intro hc; rw [hc] at m3; simp at m3)
    simp only [blotNum, UInt32.toNat_ofNat']; omega
  have split : ∀ j b, j < c.numShards.toNat → b < 65536 → (b * c.numShards.toNat + j) % c.numShards.toNat = j ∧
      (b * c.numShards.toNat + j) / c.numShards.toNat % 65536 = b := by
    intro j b hj hb
    constructor
    · rw [Nat.mul_add_mod_self_right, Nat.mod_eq_of_lt hj]
    · rw [Nat.mul_comm, Nat.mul_add_div (by omega), Nat.div_eq_of_lt hj, Nat.add_zero, Nat.mod_eq_of_lt hb]
  have hlen : ∀ jb ∈ E, (found u c (documents h) (blotNum c.numShards.toNat jb).toNat).length = (bucketIds u c (documents h) jb.1 jb.2).length := by
    intro jb hjb
    obtain ⟨m1, m2, m3⟩ := hmem jb hjb
    obtain ⟨s1, s2⟩ := split jb.1 jb.2 m1 m2
    rw [hnum jb hjb, ← bucketIds_length_found u c _ hf.ids, s1, s2]
  refine ⟨E, e1, hmem, ?_, ?_, ?_⟩
  · rw [List.Nodup, List.pairwise_map]
    refine List.Pairwise.imp_of_mem ?_ e2
    intro a b ha hb hne he
    apply hne
    have he := congrArg UInt32.toNat he
    rw [hnum a ha, hnum b hb] at he
    obtain ⟨m1, m2, _⟩ := hmem a ha
    obtain ⟨m3, m4, _⟩ := hmem b hb
    obtain ⟨s1, s2⟩ := split a.1 a.2 m1 m2
    obtain ⟨s3, s4⟩ := split b.1 b.2 m3 m4
    rw [he] at s1 s2
    exact Prod.ext (s1.symm.trans s3) (s2.symm.trans s4)
  · intro b
    constructor
    · intro hb
      obtain ⟨jb, hjb, rfl⟩ := List.mem_map.mp hb
      obtain ⟨m1, m2, m3⟩ := hmem jb hjb
      refine ⟨?_, by rw [hlen jb hjb]; exact m3⟩
      rw [hnum jb hjb, numBuckets]
      have := Nat.mul_le_mul_right c.numShards.toNat (show jb.2 ≤ 65535 by omega)
      omega
    · rintro ⟨hb1, hb2⟩
      rw [← bucketIds_length_found u c _ hf.ids] at hb2
      refine List.mem_map.mpr ⟨(b.toNat % c.numShards.toNat, b.toNat / c.numShards.toNat % 65536), ?_, ?_⟩
      · rw [e3]
        exact (Query.allDup_mem hsrt h1 _ _).mpr ⟨Nat.mod_lt _ (by omega), Nat.mod_lt _ (by omega), hb2⟩
      · apply UInt32.toNat_inj.mp
        simp only [blotNum, UInt32.toNat_ofNat']
        have e : b.toNat / c.numShards.toNat % 65536 * c.numShards.toNat + b.toNat % c.numShards.toNat = b.toNat % (c.numShards.toNat * 65536) := by
          rw [Nat.mod_mul, Nat.add_comm, Nat.mul_comm]
        have e' : b.toNat % (c.numShards.toNat * 65536) = b.toNat := Nat.mod_eq_of_lt hb1
        rw [e, e', Nat.mod_eq_of_lt b.toNat_lt]
  · rw [List.pairwise_map]
    refine List.Pairwise.imp_of_mem ?_ e4
    intro a b ha hb hle
    rw [hlen a ha, hlen b hb]; exact hle

/-- **C23/C24.**  There is a list `E` of the blots with at least two documents, each once, most documents first, such that
repeated calls of `Next` on a fresh query with any destination slices of nil `Docs` deliver exactly `E` in order: each call
as many as there is room for, each blot with all its documents in the order they were added, and `io.EOF` when and only when none is
left.  (C25 says how many passes `Next` makes.) -/
theorem C23_enumerates {h : Sessions} {x : Index} {q : QState} (hr : Reading u J srt c h x q) (hf : Fits u c (documents h)) :
    ∃ E : List UInt32, E.Nodup ∧ (∀ b : UInt32, b ∈ E ↔ b.toNat < numBuckets c ∧ 2 ≤ (found u c (documents h) b.toNat).length) ∧
      E.Pairwise (fun a b => (found u c (documents h) b.toNat).length ≤ (found u c (documents h) a.toNat).length) ∧
      ∀ grow ff fuel dsts, (∀ dst ∈ dsts, ∀ b ∈ dst, b.docs = none) → 2 ^ 32 ≤ ff → E.length + c.numShards.toNat + 2 ^ 32 < fuel →
        ∃ rs, nextCalls grow x ff fuel q dsts = .ok rs ∧
          Enumerates (fun b => (found u c (documents h) b.toNat).map Document.shown) E dsts rs := by
  obtain ⟨h1, _⟩ := hr.rep hU hsrt hf
  obtain ⟨E, e1, e2, e3, e4, e5⟩ := enumeration hU hsrt hr hf
  refine ⟨_, e3, e4, e5, fun grow ff fuel dsts hnil hff hfuel => ?_⟩
  exact nextCalls_spec hU hsrt h1 hf grow ff fuel hff dsts q E e1 e2 hnil (by simpa using hfuel)

omit hU hsrt in
/-- what the calls delivered, in order -/
def delivered (rs : List Query.NextResult) : List Blot := rs.flatMap fun r => r.dst.take r.n

omit hU hsrt in
theorem Enumerates.delivered {docsOf : UInt32 → List Doc} : ∀ (dsts : List (List Blot)) (E : List UInt32) (rs : List Query.NextResult), Enumerates docsOf E dsts rs →
    (Props.delivered rs).map (fun b => (b.blot, b.vis)) = (E.take (dsts.map List.length).sum).map (fun b => (b, docsOf b)) ∧
      ((∃ r ∈ rs, r.eof = true) → E.take (dsts.map List.length).sum = E) := by
  intro dsts
  induction dsts with
  | nil =>
    intro E rs h
    cases rs with
    | nil => simp [Props.delivered]
    | cons => exact h.elim
  | cons dst dsts ih =>
    intro E rs h
    cases rs with
    | nil => exact h.elim
    | cons r rs =>
      obtain ⟨h1, h2, h3, h4, h5⟩ := h
      obtain ⟨i1, i2⟩ := ih _ _ h5
      simp only [List.map_cons, List.sum_cons]
      constructor
      · rw [List.take_add, List.map_append, ← i1]
        simp only [Props.delivered, List.flatMap_cons, List.map_append]
        congr 1
        apply List.ext_getElem?
        intro i
        simp only [List.getElem?_map, List.getElem?_take, h1]
        by_cases hi : i < min E.length dst.length
        · obtain ⟨bl, b1, b2, b3⟩ := h4 i E[i] (by omega) (List.getElem?_eq_getElem (by omega))
          rw [if_pos hi, if_pos (by omega), b1, List.getElem?_eq_getElem (by omega)]
          simp [b2, b3]
        · rw [if_neg hi]
          split
          · rw [List.getElem?_eq_none (show E.length ≤ i by omega)]; rfl
          · rfl
      · rintro ⟨r', hr', he⟩
        rw [List.take_add]
        rcases List.mem_cons.mp hr' with rfl | hr'
        · have := (h2.mp he).1; subst this; simp
        · rw [i2 ⟨r', hr', he⟩, List.take_append_drop]

/-- **C23**, read off the results: what was delivered up to an `io.EOF` is, in some order without repetition, every blot with two or more documents, with
all its documents in order. -/
theorem C23_until_eof {h : Sessions} {x : Index} {q : QState} (hr : Reading u J srt c h x q) (hf : Fits u c (documents h)) {grow ff fuel dsts rs}
    (hnil : ∀ dst ∈ dsts, ∀ b ∈ dst, b.docs = none) (hff : 2 ^ 32 ≤ ff) (hfuel : 2 ^ 32 + 2 ^ 32 + 2 ^ 32 < fuel)
    (hrs : nextCalls grow x ff fuel q dsts = .ok rs) (he : ∃ r ∈ rs, r.eof = true) :
    ((delivered rs).map Blot.blot).Nodup ∧ (∀ b : UInt32, b ∈ (delivered rs).map Blot.blot ↔ b.toNat < numBuckets c ∧ 2 ≤ (found u c (documents h) b.toNat).length) ∧
      ∀ b ∈ delivered rs, b.vis = (found u c (documents h) b.blot.toNat).map Document.shown := by
  obtain ⟨E, e1, e2, e3, e4⟩ := C23_enumerates hU hsrt hr hf
  have hl := nodup32_length E e1
  have hn' := hU.shardsSmall
  obtain ⟨rs', k1, k2⟩ := e4 grow ff fuel dsts hnil hff (by omega)
  rw [hrs] at k1; injection k1 with k1; subst k1
  obtain ⟨d1, d2⟩ := Enumerates.delivered dsts E rs k2
  rw [d2 he] at d1
  have hb : (delivered rs).map Blot.blot = E := by
    have := congrArg (List.map Prod.fst) d1
    rw [List.map_map, List.map_map] at this
    refine Eq.trans ?_ (this.trans ?_)
    · rfl
    · simp [Function.comp_def]
  refine ⟨by rw [hb]; exact e1, by rw [hb]; exact e2, fun b hb => ?_⟩
  have : (b.blot, b.vis) ∈ E.map fun b => (b, (found u c (documents h) b.toNat).map Document.shown) := by
    rw [← d1]; exact List.mem_map.mpr ⟨b, hb, rfl⟩
  obtain ⟨b', _, hb'⟩ := List.mem_map.mp this
  injection hb' with g1 g2
  subst g1; exact g2.symm

/-- **C24.**  Whatever calls are made, the blots come with non-increasing numbers of documents; and every blot not yet delivered
has at most as many documents as any delivered one: stopping below a threshold misses none above it. -/
theorem C24_order {h : Sessions} {x : Index} {q : QState} (hr : Reading u J srt c h x q) (hf : Fits u c (documents h)) {grow ff fuel dsts rs}
    (hnil : ∀ dst ∈ dsts, ∀ b ∈ dst, b.docs = none) (hff : 2 ^ 32 ≤ ff) (hfuel : 2 ^ 32 + 2 ^ 32 + 2 ^ 32 < fuel)
    (hrs : nextCalls grow x ff fuel q dsts = .ok rs) :
    (delivered rs).Pairwise (fun a b => b.vis.length ≤ a.vis.length) ∧
      ∀ b : UInt32, b.toNat < numBuckets c → 2 ≤ (found u c (documents h) b.toNat).length → b ∉ (delivered rs).map Blot.blot →
        ∀ a ∈ delivered rs, (found u c (documents h) b.toNat).length ≤ a.vis.length := by
  obtain ⟨E, e1, e2, e3, e4⟩ := C23_enumerates hU hsrt hr hf
  have hl := nodup32_length E e1
  have hn' := hU.shardsSmall
  obtain ⟨rs', k1, k2⟩ := e4 grow ff fuel dsts hnil hff (by omega)
  rw [hrs] at k1; injection k1 with k1; subst k1
  obtain ⟨d1, -⟩ := Enumerates.delivered dsts E rs k2
  have hb : (delivered rs).map Blot.blot = E.take (dsts.map List.length).sum := by
    have := congrArg (List.map Prod.fst) d1
    rw [List.map_map, List.map_map] at this
    refine Eq.trans ?_ (this.trans ?_)
    · rfl
    · simp [Function.comp_def]
  have hv : (delivered rs).map (fun b => b.vis.length) = (E.take (dsts.map List.length).sum).map fun b => (found u c (documents h) b.toNat).length := by
    have := congrArg (List.map fun p => p.2.length) d1
    rw [List.map_map, List.map_map] at this
    refine Eq.trans ?_ (this.trans ?_)
    · rfl
    · simp [Function.comp_def]
  constructor
  · have : ((delivered rs).map fun b => b.vis.length).Pairwise (fun a b => b ≤ a) := by
      rw [hv, List.pairwise_map]; exact e3.sublist (List.take_sublist _ _)
    rwa [List.pairwise_map] at this
  · intro b g1 g2 g3 a ha
    have hbE := (e2 b).mpr ⟨g1, g2⟩
    rw [hb] at g3
    have hbd : b ∈ E.drop (dsts.map List.length).sum := by
      rw [← List.take_append_drop (dsts.map List.length).sum E] at hbE
      exact (List.mem_append.mp hbE).resolve_left g3
    have : a.vis.length ∈ (delivered rs).map fun b => b.vis.length := List.mem_map.mpr ⟨a, ha, rfl⟩
    rw [hv] at this
    obtain ⟨a', ha', e⟩ := List.mem_map.mp this
    rw [← e]
    rw [← List.take_append_drop (dsts.map List.length).sum E] at e3
    exact (List.pairwise_append.mp e3).2.2 a' ha' b hbd

omit hU hsrt in
/-- the state of the query after some calls -/
def stateAfter (q : QState) : List Query.NextResult → QState
  | [] => q
  | r :: rs => stateAfter r.state rs

theorem nextCalls_state {h : Sessions} {x : Index} (hx : Holds srt x c.numShards.toNat (bucketIds u c (documents h)) (metaOf (documents h)))
    (grow : Nat → Nat) (ff fuel : Nat) (hff : 2 ^ 32 ≤ ff) : ∀ (dsts : List (List Blot)) (q : QState) (E : List (Nat × Nat)),
    Query.Delivers x c.numShards.toNat (bucketIds u c (documents h)) (metaOf (documents h)) q E →
    (∀ dst ∈ dsts, ∀ b ∈ dst, b.docs = none) →
    (dsts = [] ∨ ((dsts.dropLast.map List.length).sum ≤ E.length ∧ q.nilCount = 0 ∧ E.length + 2 * c.numShards.toNat < fuel) ∨ E.length + c.numShards.toNat + 2 ^ 32 < fuel) →
    ∃ rs, nextCalls grow x ff fuel q dsts = .ok rs ∧
      Query.Delivers x c.numShards.toNat (bucketIds u c (documents h)) (metaOf (documents h)) (stateAfter q rs) (E.drop (dsts.map List.length).sum) ∧
      (E.length < (dsts.map List.length).sum ∨ (E = [] ∧ q.nilCount = q.n) → (stateAfter q rs).nilCount = (stateAfter q rs).n) := by
  intro dsts
  have hn := hU.shards
  have hn' := hU.shardsSmall
  induction dsts with
  | nil => intro q E h1 _ _; exact ⟨[], rfl, by simpa [stateAfter] using h1, fun hc => (hc.resolve_left (by simp)).2⟩
  | cons dst dsts ih =>
    intro q E hE hnil hfuel
    have hgo := Query.toGo_le q
    have hqn := hE.n
    have hgo' : q.nilCount = 0 → Query.toGo q = c.numShards.toNat := by
      intro e
      have e0 : UInt32.ofNat c.numShards.toNat ≠ 0 := by
        intro hc; have := congrArg UInt32.toNat hc; simp at this; omega
      have e1 : q.n - q.nilCount = UInt32.ofNat c.numShards.toNat := by rw [e, hqn]; simp
      unfold Query.toGo
      rw [e1, if_neg e0]
      simp; omega
    obtain ⟨r, e1, e2⟩ := Query.nextLoop_delivers hsrt hx (by omega) grow hff hE 0 fuel dst
      (fun i b _ hb => hnil dst (by simp) b (List.mem_of_getElem? hb)) (Nat.zero_le _) (by
        rcases hfuel with hc | ⟨_, h2, h3⟩ | h2
        · cases hc
        · have := hgo' h2; omega
        · omega)
    have hrest := e2.rest
    have hended := e2.ended
    have hgoing := e2.going
    rw [Nat.sub_zero] at hrest hended hgoing
    obtain ⟨rs, k1, k2, k3⟩ := ih r.state (E.drop dst.length) hrest (fun d hd => hnil d (by simp [hd])) (by
        rcases hfuel with hc | ⟨h1, h2, h3⟩ | h2
        · cases hc
        · cases dsts with
          | nil => exact .inl rfl
          | cons d ds =>
            simp only [List.dropLast_cons_cons, List.map_cons, List.sum_cons] at h1
            right; left
            rw [(hgoing (by omega)).1, List.length_drop]
            exact ⟨by omega, h2, by omega⟩
        · right; right; simp; omega)
    refine ⟨r :: rs, by simp only [nextCalls, Query.next, e1, bind, Except.bind, k1, pure, Except.pure], ?_, ?_⟩
    · simp only [stateAfter, List.map_cons, List.sum_cons]
      rw [List.drop_drop] at k2; exact k2
    · simp only [stateAfter, List.map_cons, List.sum_cons]
      intro hc
      apply k3
      rcases hc with hc | ⟨hc, hq⟩
      · by_cases hle : E.length < dst.length
        · right; exact ⟨List.drop_eq_nil_of_le (by omega), hended hle⟩
        · left; simp; omega
      · right
        refine ⟨by simp [hc], ?_⟩
        by_cases hle : E.length < dst.length
        · exact hended hle
        · rw [(hgoing (by omega)).1, (hgoing (by omega)).2]; exact hq

/-- **C25**, the first end.  On a fresh query, as long as the earlier calls had room for no more blots than there are, a
call returns after at most one pass for each blot and two for each shard: in particular the call that returns the first
`io.EOF` does.  (`C23_enumerates` says what it returns, and that every later call returns `io.EOF` again.) -/
theorem C25_first_end_partial {h : Sessions} {x : Index} {q : QState} (hr : Reading u J srt c h x q) (hf : Fits u c (documents h)) :
    ∃ k, (∀ E : List UInt32, E.Nodup → (∀ b ∈ E, b.toNat < numBuckets c ∧ 2 ≤ (found u c (documents h) b.toNat).length) → E.length ≤ k) ∧
      (∃ E : List UInt32, E.Nodup ∧ (∀ b ∈ E, b.toNat < numBuckets c ∧ 2 ≤ (found u c (documents h) b.toNat).length) ∧ E.length = k) ∧
      ∀ grow ff fuel dsts, (∀ dst ∈ dsts, ∀ b ∈ dst, b.docs = none) → 2 ^ 32 ≤ ff → (dsts.dropLast.map List.length).sum ≤ k →
        k + 2 * c.numShards.toNat < fuel → ∃ rs, nextCalls grow x ff fuel q dsts = .ok rs := by
  obtain ⟨h1, _, h2, _⟩ := hr.rep hU hsrt hf
  obtain ⟨E, e1, e2, e3, e4, e5⟩ := enumeration hU hsrt hr hf
  refine ⟨E.length, ?_, ⟨_, e3, fun b hb => (e4 b).mp hb, by simp⟩, ?_⟩
  · intro F f1 f2
    have := nodup_subset_length F (E.map (blotNum c.numShards.toNat)) f1 (fun b hb => (e4 b).mpr (f2 b hb))
    simpa using this
  · intro grow ff fuel dsts hnil hff hsum hfuel
    obtain ⟨rs, k1, _⟩ := nextCalls_state hU hsrt h1 grow ff fuel hff dsts q E e1 hnil (.inr (.inl ⟨hsum, h2, hfuel⟩))
    exact ⟨rs, k1⟩

/-- **C25** is false in the rest: once a call returned fewer blots than there was room for, every later call with room for at
least one makes more than four thousand million passes (2^32 - 1 do not suffice) before it returns `io.EOF`. -/
theorem C25_false_spins {h : Sessions} {x : Index} {q : QState} (hr : Reading u J srt c h x q) (hf : Fits u c (documents h)) {grow ff fuel dsts rs}
    (hnil : ∀ dst ∈ dsts, ∀ b ∈ dst, b.docs = none) (hff : 2 ^ 32 ≤ ff) (hfuel : 2 ^ 32 + 2 ^ 32 + 2 ^ 32 < fuel)
    (hrs : nextCalls grow x ff fuel q dsts = .ok rs) (hshort : (delivered rs).length < (dsts.map List.length).sum) (dst : List Blot) (hd : dst ≠ [])
    (hdn : ∀ b ∈ dst, b.docs = none) :
    (∀ fuel', fuel' < 2 ^ 32 → Query.next grow x ff fuel' (stateAfter q rs) dst = .error .diverge) ∧
      ∃ r, Query.next grow x ff fuel (stateAfter q rs) dst = .ok r ∧ r.n = 0 ∧ r.eof = true := by
  obtain ⟨h1, _, h2, _⟩ := hr.rep hU hsrt hf
  obtain ⟨E, e1, e2, e3, e4, e5⟩ := enumeration hU hsrt hr hf
  have hl := nodup32_length _ e3
  rw [List.length_map] at hl
  have hn' := hU.shardsSmall
  obtain ⟨rs', k1, k2, k3⟩ := nextCalls_state hU hsrt h1 grow ff fuel hff dsts q E e1 hnil (.inr (.inr (by omega)))
  rw [hrs] at k1; injection k1 with k1; subst k1
  obtain ⟨rs', k4, k5⟩ := nextCalls_spec hU hsrt h1 hf grow ff fuel hff dsts q E e1 e2 hnil (by omega)
  rw [hrs] at k4; injection k4 with k4; subst k4
  have hlen := congrArg List.length (Enumerates.delivered dsts _ rs k5).1
  simp only [List.length_map, List.length_take] at hlen
  have hE : E.length < (dsts.map List.length).sum := by omega
  rw [List.drop_eq_nil_of_le (by omega)] at k2
  have hend := k3 (.inl hE)
  cases k2 with
  | done k2 =>
    have := Query.nextLoop_exh hsrt h1 (by omega) grow (ff := ff) (by omega) 0
    have hd0 : 0 < dst.length := List.length_pos_iff.mpr hd
    have hg := Query.toGo_end _ hend
    have hop : Query.opens (stateAfter q rs) ≤ c.numShards.toNat := by
      have := List.countP_le_length (p := Option.isSome) (l := (stateAfter q rs).shardStates)
      rw [k2.lenS] at this; exact this
    have hnf : Query.NilFrom 0 dst := fun i b _ hb => hdn b (List.mem_of_getElem? hb)
    refine ⟨fun fuel' hf' => (this fuel' _ dst k2 hnf hd0).2 (by omega), ?_⟩
    obtain ⟨r, r1, r2, r3, _⟩ := (this fuel _ dst k2 hnf hd0).1 (by omega)
    exact ⟨r, r1, r2, by simpa using r3⟩

/-! ## C29 -/

omit hU hsrt in
theorem sum_range_succ (f : Nat → Nat) (k : Nat) : ((List.range (k + 1)).map f).sum = ((List.range k).map f).sum + f k := by
  rw [List.range_succ, List.map_append, List.sum_append]; simp

omit hU hsrt in
theorem sum_range_add (f : Nat → Nat) (a b : Nat) : ((List.range (a + b)).map f).sum = ((List.range a).map f).sum + ((List.range b).map fun j => f (a + j)).sum := by
  induction b with
  | zero => simp
  | succ b ih => rw [← Nat.add_assoc, sum_range_succ, ih, sum_range_succ]; omega

omit hU hsrt in
theorem sum_range_sum (g h : Nat → Nat) (n : Nat) : ((List.range n).map fun j => g j + h j).sum = ((List.range n).map g).sum + ((List.range n).map h).sum := by
  induction n with
  | zero => simp
  | succ n ih => rw [sum_range_succ, sum_range_succ, sum_range_succ, ih]; omega

omit hU hsrt in
/-- numbering the pairs of a shard and a bucket in it -/
theorem sum_grid (f : Nat → Nat) (n k : Nat) :
    ((List.range n).map fun j => ((List.range k).map fun q => f (q * n + j)).sum).sum = ((List.range (n * k)).map f).sum := by
  induction k with
  | zero =>
    simp only [List.range_zero, List.map_nil, List.sum_nil, Nat.mul_zero]
    induction n with
    | zero => rfl
    | succ n ih => rw [sum_range_succ, ih]; rfl
  | succ k ih =>
    rw [Nat.mul_succ, sum_range_add, ← ih, ← sum_range_sum]
    congr 1
    apply List.map_congr_left
    intro j _
    rw [sum_range_succ, Nat.mul_comm n k]

omit hU hsrt in
/-- counting pairs one way or the other -/
theorem sum_found (u : Uni) (c : Config) (docs : List Document) (k : Nat) :
    ((List.range k).map fun b => (found u c docs b).length).sum = (docs.map fun s => ((List.range k).filter fun b => hasBlot u c s.dat b).length).sum := by
  induction docs with
  | nil => induction k with
    | zero => rfl
    | succ k ih => rw [sum_range_succ, ih]; rfl
  | cons s docs ih =>
    rw [List.map_cons, List.sum_cons, ← ih]
    clear ih
    induction k with
    | zero => simp
    | succ k ih =>
      rw [sum_range_succ, sum_range_succ, ih, List.range_succ, List.filter_append, List.length_append]
      have : (found u c (s :: docs) k).length = (List.filter (fun b => hasBlot u c s.dat b) [k]).length + (found u c docs k).length := by
        unfold found
        rw [List.filter_cons]
        cases hb : hasBlot u c s.dat k <;> simp [hb] <;> omega
      omega

/-- **C29.**  After any history: `NumBlots` is the number of buckets, `NumPosts` the number of pairs of a document and a bucket one of its blots
falls in; but `NumDocs` is one more than the number of documents added (it counts the reserved record). -/
theorem C29_stats_partial {h : Sessions} {x : Index} {q : QState} (hr : Reading u J srt c h x q) (hf : Fits u c (documents h)) :
    x.stats.numBlots = numBuckets c ∧ x.stats.numPosts = ((documents h).map fun s => (bucketsOf u c s.dat).length).sum ∧
      x.stats.numDocs = (documents h).length + 1 := by
  obtain ⟨h1, _, _, _, _, h6⟩ := hr.rep hU hsrt hf
  refine ⟨?_, ?_, h6⟩
  · simp only [Index.stats, numBuckets, h1.len]; omega
  · have hs : x.shards.map ShardIndex.numPosts = (List.range c.numShards.toNat).map fun j =>
        ((List.range 65536).map fun q => (found u c (documents h) (q * c.numShards.toNat + j)).length).sum := by
      apply List.ext_getElem?
      intro j
      simp only [List.getElem?_map]
      by_cases hj : j < c.numShards.toNat
      · have hj' : j < x.shards.length := by rw [h1.len]; exact hj
        rw [List.getElem?_eq_getElem hj', List.getElem?_eq_getElem (by simpa using hj)]
        simp only [Option.map_some, List.getElem_range]
        have h6 := h1.sh j x.shards[j] (List.getElem?_eq_getElem hj')
        rw [ShardIndex.numPosts]
        refine congrArg (fun l : List Nat => some l.sum) ?_
        apply List.ext_getElem
        · simp [h6.lenC]
        · intro i g1 g2
          have hi : i < 65536 := by simpa [h6.lenC] using g1
          have := h6.counts i hi
          have hc : i < x.shards[j].counts.length := by rw [h6.lenC]; exact hi
          simp only [List.getD_eq_getElem?_getD, List.getElem?_eq_getElem hc, Option.getD_some] at this
          simp only [List.getElem_map, List.getElem_range, this]
          rw [← bucketIds_length_found u c _ hf.ids, Nat.mul_add_mod_self_right, Nat.mod_eq_of_lt hj, Nat.mul_comm,
            Nat.mul_add_div (by omega), Nat.div_eq_of_lt hj, Nat.add_zero, Nat.mod_eq_of_lt hi]
      · rw [List.getElem?_eq_none (by rw [h1.len]; omega), List.getElem?_eq_none (by simp; omega)]; rfl
    show (x.shards.map ShardIndex.numPosts).sum = _
    rw [hs, sum_grid (fun b => (found u c (documents h) b).length), sum_found]
    rfl

/-! ## C45 -/

/-- **C45** is false: a document returned in a reused slice has whatever data its place in the slice had. -/
theorem C45_false_stale_data {h : Sessions} {x : Index} {q : QState} (hr : Reading u J srt c h x q) (hf : Fits u c (documents h))
    (grow : Nat → Nat) (b : UInt32) (m : Document) (rest : List Document) (hm : found u c (documents h) b.toNat = m :: rest) (old : Doc) :
    ∃ fuel, Query.get grow x fuel q ⟨b, some ⟨[], [old]⟩⟩ = .ok ⟨b, some ⟨[⟨m.path, m.start, m.stop, old.dat⟩], []⟩⟩ := by
  have := C22_get_limited hU hsrt hr hf grow b [] [old] _ (Nat.lt_succ_self _) rfl
  simp only [hm] at this
  exact ⟨_, by simpa using this⟩

/-- **C45**, the rest: a slice whose unused places have no data gets documents without data. -/
theorem C45_no_data_partial {h : Sessions} {x : Index} {q : QState} (hr : Reading u J srt c h x q) (hf : Fits u c (documents h))
    (grow : Nat → Nat) (b : UInt32) (v s : List Doc) (hs : ∀ d ∈ s, d.dat = none) (fuel : Nat) (hfuel : (documents h).length < fuel) :
    ∃ r, Query.get grow x fuel q ⟨b, some ⟨v, s⟩⟩ = .ok r ∧
      r.vis = v ++ ((found u c (documents h) b.toNat).take s.length).map Document.shown := by
  refine ⟨_, C22_get_limited hU hsrt hr hf grow b v s fuel hfuel rfl, ?_⟩
  simp only [Blot.vis]
  congr 1
  generalize found u c (documents h) b.toNat = ms
  clear hfuel
  induction s generalizing ms with
  | nil => simp
  | cons d s ih =>
    cases ms with
    | nil => simp
    | cons m ms =>
      rw [List.zipWith_cons_cons, ih (fun d hd => hs d (by simp [hd])) ms, hs d (by simp)]
      simp [Document.shown]

/-! ## C37 -/

omit hU hsrt in
theorem filterMap_ext {α β : Type} (f g : α → Option β) (l : List α) (h : ∀ a ∈ l, f a = g a) : l.filterMap f = l.filterMap g := by
  induction l with
  | nil => rfl
  | cons a l ih => rw [List.filterMap_cons, List.filterMap_cons, h a (by simp), ih fun b hb => h b (by simp [hb])]

omit hU hsrt in
theorem blots_window (n k : Nat) (p w r : List UInt32) (hw : w.length = n * k + 1) : windowXor n k w.reverse ∈ blots n k (p ++ w ++ r) := by
  refine List.mem_map.mpr ⟨p.length, List.mem_range.mpr (by simp; omega), ?_⟩
  have e : (p ++ w ++ r).take (n * k + p.length + 1) = p ++ w := by
    rw [List.take_append_of_le_length (by simp; omega)]
    apply List.take_of_length_le; simp; omega
  rw [e, List.reverse_append]
  unfold windowXor
  refine congrArg xorAll (filterMap_ext _ _ _ fun t ht => ?_)
  rw [List.getElem?_append_left]
  have := Nat.mul_le_mul_right k (Nat.le_of_lt (List.mem_range.mp ht))
  simp; omega

omit hsrt in
/-- two documents with the same `SeqLen + 1` words in them have a bucket in common -/
theorem shared_bucket {docs A B D : List Document} {s t : Document} (hd : docs = A ++ s :: B ++ t :: D)
    {p1 w1 r1 p2 w2 r2 : List (List Char)} (h1 : wordChars u s.dat = p1 ++ w1 ++ r1) (h2 : wordChars u t.dat = p2 ++ w2 ++ r2)
    (hl : w1.length = c.seqLen.toNat + 1) (hw : w1.map (List.map (lowerChar u)) = w2.map (List.map (lowerChar u))) :
    ∃ m : UInt32, m.toNat < numBuckets c ∧ [s, t].Sublist (found u c docs m.toNat) := by
  have hcons := hU.cons
  have hk : c.blotConfig.seqLen.toNat * c.blotConfig.interleave.toNat + 1 = c.seqLen.toNat + 1 := by
    rw [hcons.prod, Int.toNat_mul (by have := hcons.inter; omega) (by have := hcons.seq; omega), Nat.mul_comm]
  have hlen : w2.length = w1.length := by have := congrArg List.length hw; simpa using this.symm
  have hh : w1.map (hashOf u) = w2.map (hashOf u) := by
    have e := congrArg (List.map fun w : List Char => UInt32.ofNat (fnv1 ((utf8 w).map UInt8.toNat))) hw
    rw [List.map_map, List.map_map] at e
    exact e
  let b := windowXor c.blotConfig.seqLen.toNat c.blotConfig.interleave.toNat (w1.map (hashOf u)).reverse
  have b1 : b ∈ blotsOf u c s.dat := by
    unfold blotsOf
    rw [h1, List.map_append, List.map_append]
    exact blots_window _ _ _ _ _ (by simp; omega)
  have b2 : b ∈ blotsOf u c t.dat := by
    unfold blotsOf
    rw [h2, List.map_append, List.map_append, ← hh]
    exact blots_window _ _ _ _ _ (by simp; omega)
  have hn := hU.shards
  have hN : 0 < numBuckets c := by unfold numBuckets; omega
  let m : UInt32 := UInt32.ofNat (b.toNat % numBuckets c)
  have hm : m.toNat = b.toNat % numBuckets c := by
    have := Nat.mod_le b.toNat (numBuckets c)
    have := b.toNat_lt
    simp only [m, UInt32.toNat_ofNat']
    exact Nat.mod_eq_of_lt (by omega)
  have hb : ∀ d, b ∈ blotsOf u c d → hasBlot u c d m.toNat = true := by
    intro d hd
    simp only [hasBlot, List.any_eq_true, decide_eq_true_eq]
    refine ⟨b, hd, ?_⟩
    rw [hm]; simp [numBuckets]
  have hsub : [s, t].Sublist (found u c (docs) m.toNat) := by
    have : [s, t].Sublist (docs) := by
      rw [hd]
      have e1 : [s].Sublist (A ++ s :: B) := by simp
      have e2 : [t].Sublist (t :: D) := by simp
      exact e1.append e2
    have := this.filter (fun s => hasBlot u c s.dat m.toNat)
    unfold found; simpa [List.filter_cons, hb _ b1, hb _ b2] using this
  exact ⟨m, by rw [hm]; exact Nat.mod_lt _ hN, hsub⟩

/-- **C37.**  If two documents contain the same run of `SeqLen+1` words (one after another, up to case), an unlimited extraction run to
its end reports a blot whose documents include both. -/
theorem C37_duplicates {h : Sessions} {x : Index} {q : QState} (hr : Reading u J srt c h x q) (hf : Fits u c (documents h)) {grow ff fuel dsts rs}
    (hnil : ∀ dst ∈ dsts, ∀ b ∈ dst, b.docs = none) (hff : 2 ^ 32 ≤ ff) (hfuel : 2 ^ 32 + 2 ^ 32 + 2 ^ 32 < fuel)
    (hrs : nextCalls grow x ff fuel q dsts = .ok rs) (he : ∃ r ∈ rs, r.eof = true)
    {A B D : List Document} {s t : Document} (hd : documents h = A ++ s :: B ++ t :: D)
    {p1 w1 r1 p2 w2 r2 : List (List Char)} (h1 : wordChars u s.dat = p1 ++ w1 ++ r1) (h2 : wordChars u t.dat = p2 ++ w2 ++ r2)
    (hl : w1.length = c.seqLen.toNat + 1) (hw : w1.map (List.map (lowerChar u)) = w2.map (List.map (lowerChar u))) :
    ∃ b ∈ delivered rs, [s.shown, t.shown].Sublist b.vis := by
  obtain ⟨m, hm, hsub⟩ := shared_bucket hU hd h1 h2 hl hw
  obtain ⟨k1, k2, k3⟩ := C23_until_eof hU hsrt hr hf hnil hff hfuel hrs he
  have hin := (k2 m).mpr ⟨hm, hsub.length_le⟩
  obtain ⟨bl, hbl, hblm⟩ := List.mem_map.mp hin
  refine ⟨bl, hbl, ?_⟩
  rw [k3 bl hbl, hblm]
  exact hsub.map Document.shown

end
/-! ## Non-vacuity -/

/-- a sorter: what `sort.Slice` could be -/
def mergeSorter : Sorter := fun counts => (List.range counts.length).mergeSort fun i j => decide (counts.getD j 0 ≤ counts.getD i 0)

theorem mergeSorter_isSorter : IsSorter mergeSorter where
  perm counts := List.mergeSort_perm _ _
  sorted counts := by
    have := List.pairwise_mergeSort (le := fun i j => decide (counts.getD j 0 ≤ counts.getD i 0))
      (by intro a b c h1 h2
          simp only [decide_eq_true_eq, UInt32.le_iff_toNat_le] at *
          omega)
      (by intro a b
          simp only [Bool.or_eq_true, decide_eq_true_eq, UInt32.le_iff_toNat_le]
          omega) (List.range counts.length)
    exact this.imp fun h => by simpa using h

/-- an example: sequences of two words, three shards -/
def exQConfig : Config := ⟨[47, 105], 2, 3, 2, 5, ⟨wordsSimple⟩, ⟨2, 1⟩⟩

/-- two sessions; "a b c d." in the first and "x A, b  C!" in the second are the first and third document -/
def exHistory : Sessions :=
  [([47], [⟨[112], 0, 8, some [97, 32, 98, 32, 99, 32, 100, 46]⟩, ⟨[113], 0, 0, some [0xff]⟩]),
   ([47, 119], [⟨[112], 3, 13, some [120, 32, 65, 44, 32, 98, 32, 32, 67, 33]⟩])]

theorem exUsable : Usable ⟨fun _ => [], fun _ => .ok exQConfig⟩ exQConfig :=
  ⟨⟨by decide, by decide, by decide, rfl⟩, by decide, by decide, by decide, by decide, by decide, rfl⟩

theorem exFits : Fits asciiUni exQConfig (documents exHistory) :=
  ⟨by decide, by decide +kernel, by decide +kernel⟩

/-- there are readers of the example -/
theorem exReading : ∃ x q, Reading asciiUni ⟨fun _ => [], fun _ => .ok exQConfig⟩ mergeSorter exQConfig exHistory x q := by
  obtain ⟨d, hd⟩ := History.exists (u := asciiUni) exUsable [47] _ _ exFits
  obtain ⟨x, q, _, h⟩ := reading_exists exUsable mergeSorter_isSorter hd exFits
  exact ⟨x, q, h⟩

/-- the two documents that share the passage "a b c" are found under its blot, with absolute paths -/
example : found asciiUni exQConfig (documents exHistory) (fnv32 [99] ^^^ fnv32 [98]).toNat =
    [⟨[47, 112], 0, 8, [97, 32, 98, 32, 99, 32, 100, 46]⟩, ⟨[47, 119, 47, 112], 3, 13, [120, 32, 65, 44, 32, 98, 32, 32, 67, 33]⟩] := by
  decide +kernel
example : words asciiUni [120, 32, 65, 44, 32, 98, 32, 32, 67, 33] = [[120]] ++ [[65], [98], [67]] ++ [] := by decide +kernel
example : utf8Valid [0xff] = false := by decide +kernel

end Dupi.Props
