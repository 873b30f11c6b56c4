import Verif.Props.Query
import Verif.Proof.NextLim
/-! # C26: `Next` with slices of a fixed capacity -/

namespace Dupi.Props
open Spec

/-- What the calls should return when `E` lists what is still to be delivered, each entry a blot and some of its documents: each call the next
entries, as many as there is room for; `io.EOF` iff there are none left. -/
def Slices : List (UInt32 × List Doc) → List (List Blot) → List Query.NextResult → Prop
  | _, [], [] => True
  | E, dst :: dsts, r :: rs =>
    r.n = min E.length dst.length ∧ (r.eof = true ↔ E = [] ∧ dst ≠ []) ∧ r.dst.length = dst.length ∧
    (∀ (i : Nat) e, i < dst.length → E[i]? = some e → ∃ bl, r.dst[i]? = some bl ∧ bl.blot = e.1 ∧ bl.vis.map Doc.noDat = e.2) ∧
    Slices (E.drop dst.length) dsts rs
  | _, _, _ => False

/-- slices as made by `make([]Doc, 0, cap)`, or used before -/
def Capped (cap : Nat) (dsts : List (List Blot)) : Prop := ∀ dst ∈ dsts, ∀ b ∈ dst, ∃ s, b.docs = some ⟨[], s⟩ ∧ s.length = cap

/-- the documents of `b` delivered by the calls, in order -/
def deliveredOf (rs : List Query.NextResult) (b : UInt32) : List Doc := ((delivered rs).filter fun bl => bl.blot = b).flatMap fun bl => bl.vis.map Doc.noDat

theorem Slices.delivered : ∀ (dsts : List (List Blot)) (E : List (UInt32 × List Doc)) (rs : List Query.NextResult), Slices E dsts rs →
    (Props.delivered rs).map (fun b => (b.blot, b.vis.map Doc.noDat)) = E.take (dsts.map List.length).sum ∧
      ((∃ r ∈ rs, r.eof = true) → E.take (dsts.map List.length).sum = E) := by
  intro dsts
  induction dsts with
  | nil =>
    intro E rs h
    cases rs with
    | nil => simp [Props.delivered]
    | cons => exact h.elim
  | cons dst dsts ih =>
    intro E rs h
    cases rs with
    | nil => exact h.elim
    | cons r rs =>
      obtain ⟨h1, h2, h3, h4, h5⟩ := h
      obtain ⟨i1, i2⟩ := ih _ _ h5
      simp only [List.map_cons, List.sum_cons]
      constructor
      · rw [List.take_add, ← i1]
        simp only [Props.delivered, List.flatMap_cons, List.map_append]
        congr 1
        apply List.ext_getElem?
        intro i
        simp only [List.getElem?_map, List.getElem?_take, h1]
        by_cases hi : i < min E.length dst.length
        · obtain ⟨bl, b1, b2, b3⟩ := h4 i E[i] (by omega) (List.getElem?_eq_getElem (by omega))
          rw [if_pos hi, if_pos (by omega), b1, List.getElem?_eq_getElem (by omega)]
          simp [b2, b3]
        · rw [if_neg hi]
          split
          · rw [List.getElem?_eq_none (show E.length ≤ i by omega)]; rfl
          · rfl
      · rintro ⟨r', hr', he⟩
        rw [List.take_add]
        rcases List.mem_cons.mp hr' with rfl | hr'
        · have := (h2.mp he).1; subst this; simp
        · rw [i2 ⟨r', hr', he⟩, List.take_append_drop]

/-- the documents of `b` in a list of blots and documents -/
def docsOf (E : List (UInt32 × List Doc)) (b : UInt32) : List Doc := (E.filter fun e => e.1 = b).flatMap (·.2)

theorem deliveredOf_eq (rs : List Query.NextResult) (b : UInt32) :
    deliveredOf rs b = docsOf ((delivered rs).map fun b => (b.blot, b.vis.map Doc.noDat)) b := by
  unfold deliveredOf docsOf
  rw [List.filter_map, List.flatMap_map]
  rfl

theorem docsOf_append (E F : List (UInt32 × List Doc)) (b : UInt32) : docsOf (E ++ F) b = docsOf E b ++ docsOf F b := by
  simp [docsOf]

theorem docsOf_nil_of {E : List (UInt32 × List Doc)} {b : UInt32} (h : ∀ e ∈ E, e.1 ≠ b) : docsOf E b = [] := by
  unfold docsOf
  rw [List.filter_eq_nil_iff.mpr (by intro e he; simpa using h e he)]
  rfl

theorem docsOf_group {α : Type} (f : α → UInt32) (g : α → List (List Doc)) : ∀ (E : List α), (E.map f).Nodup → ∀ a ∈ E,
    docsOf (E.flatMap fun e => (g e).map fun p => (f e, p)) (f a) = (g a).flatten := by
  intro E
  induction E with
  | nil => intro _ a ha; simp at ha
  | cons e E ih =>
    intro hn a ha
    rw [List.map_cons, List.nodup_cons] at hn
    rw [List.flatMap_cons, docsOf_append]
    have hself : docsOf ((g e).map fun p => (f e, p)) (f e) = (g e).flatten := by
      unfold docsOf
      rw [List.filter_eq_self.mpr (by intro p hp; obtain ⟨p', _, rfl⟩ := List.mem_map.mp hp; simp), List.flatMap_map]
      simp [List.flatMap_id']
    rcases List.mem_cons.mp ha with rfl | ha
    · rw [hself, docsOf_nil_of, List.append_nil]
      intro p hp he
      obtain ⟨e', he', hp⟩ := List.mem_flatMap.mp hp
      obtain ⟨_, _, rfl⟩ := List.mem_map.mp hp
      exact hn.1 (he ▸ List.mem_map_of_mem he')
    · rw [ih hn.2 a ha, docsOf_nil_of, List.nil_append]
      intro p hp he
      obtain ⟨_, _, rfl⟩ := List.mem_map.mp hp
      simp only at he
      exact hn.1 (he ▸ List.mem_map_of_mem ha)

/-- a piece, as shown -/
def shownPiece (docs : List Document) (n : Nat) (p : Nat × Nat × List UInt32) : UInt32 × List Doc :=
  (blotNum n (p.1, p.2.1), p.2.2.map fun id => Doc.ofMeta (metaOf docs id))

section
variable {u : Uni} {J : CfgCodec} {srt : Sorter} {c : Config} (hU : Usable J c) (hsrt : IsSorter srt)
include hU hsrt

theorem nextCalls_lim {h : Sessions} {x : Index} (hx : Holds srt x c.numShards.toNat (bucketIds u c (documents h)) (metaOf (documents h)))
    {cap : Nat} (hc : 2 ≤ cap) (grow : Nat → Nat) (ff fuel : Nat) (hff : 2 ^ 32 ≤ ff) : ∀ (dsts : List (List Blot)) (q : QState) (K : Nat) (F : List (Nat × Nat × List UInt32)),
    Query.DelLim x c.numShards.toNat (bucketIds u c (documents h)) (metaOf (documents h)) cap q K F → Capped cap dsts → K + c.numShards.toNat + 2 ^ 32 < fuel →
    ∃ rs, nextCalls grow x ff fuel q dsts = .ok rs ∧ Slices (F.map (shownPiece (documents h) c.numShards.toNat)) dsts rs := by
  intro dsts
  have hn := hU.shards
  have hn' := hU.shardsSmall
  induction dsts with
  | nil => intro q K F _ _ _; exact ⟨[], rfl, trivial⟩
  | cons dst dsts ih =>
    intro q K F hF hcap hfuel
    have hgo := Query.toGo_le q
    obtain ⟨r, e1, e2⟩ := Query.nextLoop_delLim hsrt hx (by omega) grow hc hff hF 0 fuel dst
      (fun i b _ hb => hcap dst (by simp) b (List.mem_of_getElem? hb)) (Nat.zero_le _) (by omega)
    obtain ⟨K', hK, hrest⟩ := e2.rest
    rw [Nat.sub_zero] at hrest
    obtain ⟨rs, k1, k2⟩ := ih r.state K' (F.drop dst.length) hrest (fun d hd => hcap d (by simp [hd])) (by omega)
    refine ⟨r :: rs, by simp only [nextCalls, Query.next, e1, bind, Except.bind, k1, pure, Except.pure], ?_, ?_, e2.len, ?_, ?_⟩
    · have := e2.count; simpa using this
    · rw [e2.eof, e2.count]
      cases F with
      | nil => simp
      | cons a F =>
        cases dst with
        | nil => simp
        | cons b dst => simp
    · intro i e hi he
      rw [List.getElem?_map, Option.map_eq_some_iff] at he
      obtain ⟨⟨j, bk, ids⟩, hp, rfl⟩ := he
      obtain ⟨bl, b1, b2, b3⟩ := e2.new i j bk ids (by omega) hp
      rw [Nat.zero_add] at b1
      exact ⟨bl, b1, b2, b3⟩
    · rw [← List.map_drop]; exact k2

omit hU hsrt in
theorem bucketIds_num {docs : List Document} (hl : docs.length + 1 < 2 ^ 32) {jb : Nat × Nat} (h1 : jb.1 < c.numShards.toNat) (h2 : jb.2 < 65536)
    (h3 : 2 ≤ (bucketIds u c docs jb.1 jb.2).length) :
    (bucketIds u c docs jb.1 jb.2).map (fun id => Doc.ofMeta (metaOf docs id)) = (found u c docs (blotNum c.numShards.toNat jb).toNat).map Document.shown := by
  have hs := bucket_small h1 h2 (by intro hc; rw [hc] at h3; simp at h3)
  have hnum : (blotNum c.numShards.toNat jb).toNat = jb.2 * c.numShards.toNat + jb.1 := by simp only [blotNum, UInt32.toNat_ofNat']; omega
  rw [← bucketIds_found u c _ hl, hnum]
  have e1 : (jb.2 * c.numShards.toNat + jb.1) % c.numShards.toNat = jb.1 := by
    rw [Nat.mul_add_mod_self_right, Nat.mod_eq_of_lt h1]
  have e2 : (jb.2 * c.numShards.toNat + jb.1) / c.numShards.toNat % 65536 = jb.2 := by
    rw [Nat.mul_comm, Nat.mul_add_div (by omega), Nat.div_eq_of_lt h1, Nat.add_zero, Nat.mod_eq_of_lt h2]
  rw [e1, e2]

omit hU hsrt in
theorem bucketIds_numlen {docs : List Document} (hl : docs.length + 1 < 2 ^ 32) {jb : Nat × Nat} (h1 : jb.1 < c.numShards.toNat) (h2 : jb.2 < 65536)
    (h3 : 2 ≤ (bucketIds u c docs jb.1 jb.2).length) :
    (bucketIds u c docs jb.1 jb.2).length = (found u c docs (blotNum c.numShards.toNat jb).toNat).length := by
  simpa using congrArg List.length (bucketIds_num hl h1 h2 h3)

/-- **C26**, the part that holds.  Suppose the index has one shard, or no blot with at least two documents has a number of documents that leaves 0 or 1
modulo the capacity.  Then repeated calls of `Next` on a fresh query, with any destination slices of that capacity, deliver a list `E` of pieces, in order,
and `io.EOF` when and only when none is left; each piece has from 2 to `cap` documents of a blot that has at least two; and the pieces of a blot are
together its documents, in order, without the last one when their number is 1 modulo the capacity (which can only be with one shard).
(What is missing: the claim itself, see the `C26_false` theorems.) -/
theorem C26_partial {h : Sessions} {x : Index} {q : QState} (hr : Reading u J srt c h x q) (hf : Fits u c (documents h)) {cap : Nat} (hc : 2 ≤ cap)
    (hor : c.numShards = 1 ∨ ∀ b : UInt32, b.toNat < numBuckets c → 2 ≤ (found u c (documents h) b.toNat).length → 2 ≤ (found u c (documents h) b.toNat).length % cap) :
    ∃ (E : List (UInt32 × List Doc)) (K : Nat),
      (∀ e ∈ E, e.1.toNat < numBuckets c ∧ 2 ≤ (found u c (documents h) e.1.toNat).length ∧ 2 ≤ e.2.length ∧ e.2.length ≤ cap) ∧
      (∀ b : UInt32, b.toNat < numBuckets c → let m := (found u c (documents h) b.toNat).length
        2 ≤ m → docsOf E b = ((found u c (documents h) b.toNat).map Document.shown).take (m - if m % cap = 1 then 1 else 0)) ∧
      ∀ grow ff fuel dsts, Capped cap dsts → 2 ^ 32 ≤ ff → K < fuel → ∃ rs, nextCalls grow x ff fuel q dsts = .ok rs ∧ Slices E dsts rs := by
  obtain ⟨h1, _⟩ := hr.rep hU hsrt hf
  obtain ⟨E, e1, e2, e3, e4, e5⟩ := enumeration hU hsrt hr hf
  have hlen : ∀ jb ∈ E, (bucketIds u c (documents h) jb.1 jb.2).length = (found u c (documents h) (blotNum c.numShards.toNat jb).toNat).length :=
    fun jb hjb => bucketIds_numlen hf.ids (e2 jb hjb).1 (e2 jb hjb).2.1 (e2 jb hjb).2.2
  obtain ⟨K, hK⟩ := e1.lim (cap := cap) hc (by
    rcases hor with e | e
    · exact .inl (by rw [e]; rfl)
    · refine .inr fun jb hjb => ?_
      rw [hlen jb hjb]
      have := (e4 _).mp (List.mem_map_of_mem hjb)
      exact e _ this.1 this.2)
  refine ⟨(Query.piecesOf (bucketIds u c (documents h)) cap E).map (shownPiece (documents h) c.numShards.toNat), K + c.numShards.toNat + 2 ^ 32, ?_, ?_, ?_⟩
  · intro e he
    obtain ⟨p, hp, rfl⟩ := List.mem_map.mp he
    obtain ⟨jb, hjb, hp⟩ := List.mem_flatMap.mp hp
    obtain ⟨ids, hids, rfl⟩ := List.mem_map.mp hp
    obtain ⟨g1, g2⟩ := (e4 _).mp (List.mem_map_of_mem hjb)
    obtain ⟨g3, g4⟩ := Query.pieces_size hc _ _ rfl ids hids
    exact ⟨g1, g2, by simpa [shownPiece] using g3, by simpa [shownPiece] using g4⟩
  · intro b hb m hm
    obtain ⟨jb, hjb, hbe⟩ := List.mem_map.mp ((e4 b).mpr ⟨hb, hm⟩)
    have hE : (Query.piecesOf (bucketIds u c (documents h)) cap E).map (shownPiece (documents h) c.numShards.toNat) =
        E.flatMap fun jb => ((Query.pieces cap (bucketIds u c (documents h) jb.1 jb.2)).map fun ids => ids.map fun id => Doc.ofMeta (metaOf (documents h) id)).map
          fun p => (blotNum c.numShards.toNat jb, p) := by
      unfold Query.piecesOf
      rw [List.map_flatMap]
      congr 1
      funext jb
      simp [shownPiece, Function.comp_def]
    rw [hE, ← hbe]
    have hg := docsOf_group (blotNum c.numShards.toNat)
      (fun jb : Nat × Nat => (Query.pieces cap (bucketIds u c (documents h) jb.1 jb.2)).map fun ids => ids.map fun id => Doc.ofMeta (metaOf (documents h) id)) E e3 jb hjb
    rw [hg, ← List.map_flatten, Query.pieces_flatten hc _ _ rfl, List.map_take, bucketIds_num hf.ids (e2 jb hjb).1 (e2 jb hjb).2.1 (e2 jb hjb).2.2, hlen jb hjb, hbe]
  · intro grow ff fuel dsts hcap hff hfuel
    exact nextCalls_lim hU hsrt h1 hc grow ff fuel hff dsts q K _ hK hcap hfuel

/-- **C26**, the part that holds, read off the results. -/
theorem C26_until_eof_partial {h : Sessions} {x : Index} {q : QState} (hr : Reading u J srt c h x q) (hf : Fits u c (documents h)) {cap : Nat} (hc : 2 ≤ cap)
    (hor : ∀ b : UInt32, b.toNat < numBuckets c → 2 ≤ (found u c (documents h) b.toNat).length → 2 ≤ (found u c (documents h) b.toNat).length % cap ∨
      c.numShards = 1 ∧ (found u c (documents h) b.toNat).length % cap = 0) :
    ∃ K : Nat, ∀ grow ff fuel dsts rs, Capped cap dsts → 2 ^ 32 ≤ ff → K < fuel → nextCalls grow x ff fuel q dsts = .ok rs → (∃ r ∈ rs, r.eof = true) →
      ∀ b : UInt32, b.toNat < numBuckets c → 2 ≤ (found u c (documents h) b.toNat).length →
        deliveredOf rs b = (found u c (documents h) b.toNat).map Document.shown := by
  obtain ⟨E, K, _, e2, e3⟩ := C26_partial hU hsrt hr hf hc (by
    by_cases h1 : c.numShards = 1
    · exact .inl h1
    · refine .inr fun b g1 g2 => ?_
      rcases hor b g1 g2 with e | e
      · exact e
      · exact absurd e.1 h1)
  refine ⟨K, fun grow ff fuel dsts rs hcap hff hfuel hrs he b hb hm => ?_⟩
  obtain ⟨rs', k1, k2⟩ := e3 grow ff fuel dsts hcap hff hfuel
  rw [hrs] at k1; injection k1 with k1; subst k1
  obtain ⟨d1, d2⟩ := Slices.delivered _ _ _ k2
  rw [deliveredOf_eq, d1, d2 he, e2 b hb hm, if_neg (by have := hor b hb hm; omega), Nat.sub_zero, List.take_of_length_le (by simp)]

omit hU hsrt in
theorem docsOf_take_length (E : List (UInt32 × List Doc)) (b : UInt32) (k : Nat) : (docsOf (E.take k) b).length ≤ (docsOf E b).length := by
  have := docsOf_append (E.take k) (E.drop k) b
  rw [List.take_append_drop] at this
  rw [this, List.length_append]; omega

/-- **C26** is false: in an index with one shard, the last document of a blot whose number of documents is 1 modulo the capacity is never delivered. -/
theorem C26_false_last {h : Sessions} {x : Index} {q : QState} (hr : Reading u J srt c h x q) (hf : Fits u c (documents h)) {cap : Nat} (hc : 2 ≤ cap)
    (h1 : c.numShards = 1) {b : UInt32} (hb : b.toNat < numBuckets c) (hm : 2 ≤ (found u c (documents h) b.toNat).length)
    (hmod : (found u c (documents h) b.toNat).length % cap = 1) :
    ∃ K : Nat, ∀ grow ff fuel dsts, Capped cap dsts → 2 ^ 32 ≤ ff → K < fuel → ∃ rs, nextCalls grow x ff fuel q dsts = .ok rs ∧
      (deliveredOf rs b).length < (found u c (documents h) b.toNat).length := by
  obtain ⟨E, K, _, e2, e3⟩ := C26_partial hU hsrt hr hf hc (.inl h1)
  refine ⟨K, fun grow ff fuel dsts hcap hff hfuel => ?_⟩
  obtain ⟨rs, k1, k2⟩ := e3 grow ff fuel dsts hcap hff hfuel
  refine ⟨rs, k1, ?_⟩
  obtain ⟨d1, _⟩ := Slices.delivered _ _ _ k2
  rw [deliveredOf_eq, d1]
  refine Nat.lt_of_le_of_lt (docsOf_take_length E b _) ?_
  rw [e2 b hb hm, if_pos hmod]
  simp; omega

/-- **C26** is false: when two blots of different shards are the only ones with at least two documents, and both have a number of documents that is 0 or 1
modulo the capacity, none of the documents of one of the two is ever delivered. -/
theorem C26_false_skips {h : Sessions} {x : Index} {q : QState} (hr : Reading u J srt c h x q) (hf : Fits u c (documents h)) {cap : Nat} (hc : 2 ≤ cap)
    {a b : UInt32} (hab : a.toNat % c.numShards.toNat ≠ b.toNat % c.numShards.toNat)
    (hall : ∀ d : UInt32, d.toNat < numBuckets c ∧ 2 ≤ (found u c (documents h) d.toNat).length ↔ d = a ∨ d = b)
    (ha : (found u c (documents h) a.toNat).length % cap ≤ 1) (hb : (found u c (documents h) b.toNat).length % cap ≤ 1) :
    ∃ lost, (lost = a ∨ lost = b) ∧ ∃ K : Nat, ∀ grow ff fuel dsts, Capped cap dsts → 2 ^ 32 ≤ ff → K < fuel →
      ∃ rs, nextCalls grow x ff fuel q dsts = .ok rs ∧ lost ∉ (delivered rs).map Blot.blot := by
  obtain ⟨h1, _⟩ := hr.rep hU hsrt hf
  obtain ⟨E, e1, e2, e3, e4, e5⟩ := enumeration hU hsrt hr hf
  have hn := hU.shards
  have hn' := hU.shardsSmall
  have hlen : ∀ jb ∈ E, (bucketIds u c (documents h) jb.1 jb.2).length = (found u c (documents h) (blotNum c.numShards.toNat jb).toNat).length :=
    fun jb hjb => bucketIds_numlen hf.ids (e2 jb hjb).1 (e2 jb hjb).2.1 (e2 jb hjb).2.2
  have hmodn : ∀ jb ∈ E, (blotNum c.numShards.toNat jb).toNat % c.numShards.toNat = jb.1 := by
    intro jb hjb
    obtain ⟨g1, g2, g3⟩ := e2 jb hjb
    have hs := bucket_small g1 g2 (by intro hc; rw [hc] at g3; simp at g3)
    have hnum : (blotNum c.numShards.toNat jb).toNat = jb.2 * c.numShards.toNat + jb.1 := by simp only [blotNum, UInt32.toNat_ofNat']; omega
    rw [hnum, Nat.mul_add_mod_self_right, Nat.mod_eq_of_lt g1]
  have hmem : ∀ d : UInt32, d ∈ E.map (blotNum c.numShards.toNat) ↔ d = a ∨ d = b := fun d => (e4 d).trans (hall d)
  have hne : a ≠ b := fun e => hab (by rw [e])
  -- so there are exactly two
  obtain ⟨A, B, hEE⟩ : ∃ A B, E = [A, B] := by
    have hle : (E.map (blotNum c.numShards.toNat)).length ≤ [a, b].length := nodup_subset_length _ _ e3 (by intro d hd; simpa using (hmem d).mp hd)
    have hge : [a, b].length ≤ (E.map (blotNum c.numShards.toNat)).length :=
      nodup_subset_length _ _ (by simpa using hne) (by intro d hd; exact (hmem d).mpr (by simpa using hd))
    rw [List.length_map] at hle hge
    match E, hle, hge with
    | [A, B], _, _ => exact ⟨A, B, rfl⟩
    | [], _, hge => simp at hge
    | [_], _, hge => simp at hge
    | _ :: _ :: _ :: _, hle, _ => simp at hle
  subst hEE
  have hA := (hmem _).mp (List.mem_map_of_mem (f := blotNum c.numShards.toNat) (a := A) (by simp))
  have hB := (hmem _).mp (List.mem_map_of_mem (f := blotNum c.numShards.toNat) (a := B) (by simp))
  have hABne : blotNum c.numShards.toNat A ≠ blotNum c.numShards.toNat B := by
    intro e; simp [e] at e3
  have hsh : A.1 ≠ B.1 := by
    rw [← hmodn A (by simp), ← hmodn B (by simp)]
    rcases hA with hA | hA <;> rcases hB with hB | hB
    · exact absurd (hA.trans hB.symm) hABne
    · rw [hA, hB]; exact hab
    · rw [hA, hB]; exact Ne.symm hab
    · exact absurd (hA.trans hB.symm) hABne
  obtain ⟨K, hK⟩ := Query.delLim_lost hsrt h1 (by omega) hc hr.start (A := A) (B := B) (by
      rw [hlen A (by simp)]
      rcases hA with hA | hA
      · rw [hA]; exact ha
      · rw [hA]; exact hb) hsh e1 (by
      intro j k hj hk h2
      have hin : (j, k) ∈ [A, B] := by
        have hs := bucket_small hj hk (by intro hc; rw [hc] at h2; simp at h2)
        have hnum : (blotNum c.numShards.toNat (j, k)).toNat = k * c.numShards.toNat + j := by simp only [blotNum, UInt32.toNat_ofNat']; omega
        have hin : blotNum c.numShards.toNat (j, k) ∈ [A, B].map (blotNum c.numShards.toNat) := by
          rw [e4]
          refine ⟨?_, by rw [← bucketIds_numlen (jb := (j, k)) hf.ids hj hk h2]; exact h2⟩
          rw [hnum, numBuckets]
          have := Nat.mul_le_mul_right c.numShards.toNat (show k ≤ 65535 by omega)
          omega
        obtain ⟨jb, hjb, he⟩ := List.mem_map.mp hin
        obtain ⟨g1, g2, g3⟩ := e2 jb hjb
        have hs' := bucket_small g1 g2 (by intro hc; rw [hc] at g3; simp at g3)
        have hnum' : (blotNum c.numShards.toNat jb).toNat = jb.2 * c.numShards.toNat + jb.1 := by simp only [blotNum, UInt32.toNat_ofNat']; omega
        have he := congrArg UInt32.toNat he
        rw [hnum, hnum'] at he
        have m1 := congrArg (· % c.numShards.toNat) he
        have m2 := congrArg (· / c.numShards.toNat) he
        simp only [Nat.mul_add_mod_self_right, Nat.mod_eq_of_lt g1, Nat.mod_eq_of_lt hj] at m1
        rw [Nat.mul_comm jb.2, Nat.mul_comm k] at m2
        simp only [Nat.mul_add_div (show 0 < c.numShards.toNat by omega), Nat.div_eq_of_lt g1, Nat.div_eq_of_lt hj, Nat.add_zero] at m2
        have : jb = (j, k) := Prod.ext m1 m2
        rwa [this] at hjb
      simpa using hin)
  refine ⟨blotNum c.numShards.toNat B, hB, K + c.numShards.toNat + 2 ^ 32, fun grow ff fuel dsts hcap hff hfuel => ?_⟩
  obtain ⟨rs, k1, k2⟩ := nextCalls_lim hU hsrt h1 hc grow ff fuel hff dsts q K _ hK hcap hfuel
  refine ⟨rs, k1, ?_⟩
  obtain ⟨d1, _⟩ := Slices.delivered _ _ _ k2
  intro hin
  have hin : blotNum c.numShards.toNat B ∈ ((delivered rs).map fun b => (b.blot, b.vis.map Doc.noDat)).map Prod.fst := by
    rw [List.map_map]; exact hin
  rw [d1] at hin
  obtain ⟨e, he, heq⟩ := List.mem_map.mp hin
  have he := List.mem_of_mem_take he
  obtain ⟨p, hp, rfl⟩ := List.mem_map.mp he
  obtain ⟨ids, _, rfl⟩ := List.mem_map.mp hp
  exact hABne heq

end

/-! ## Non-vacuity -/

/-- one word for a blot; `n` shards -/
def exLimConfig (n : Int) : Config := ⟨[47, 105], 1, n, 2, 5, ⟨wordsSimple⟩, ⟨1, 1⟩⟩

/-- `k` times the text "x b c." -/
def exLimHistory (k : Nat) : Sessions := [([47], List.replicate k ⟨[112], 0, 6, some [120, 32, 98, 32, 99, 46]⟩)]

theorem exLimUsable (n : Int) (h0 : 0 < n) (h1 : n < 2 ^ 32) : Usable ⟨fun _ => [], fun _ => .ok (exLimConfig n)⟩ (exLimConfig n) :=
  ⟨⟨by show (0 : Int) < 1; decide, by show (0 : Int) < 1; decide, by show (1 : Int) = 1 * 1; rfl, rfl⟩, by show (1 : Int) < _; decide, h0, h1, by show (0 : Int) < 2; decide, by show (1 : Int) ≤ 5; decide, rfl⟩

theorem exLimReading (n : Int) (h0 : 0 < n) (h1 : n < 2 ^ 32) (k : Nat) (hf : Fits asciiUni (exLimConfig n) (documents (exLimHistory k))) :
    ∃ x q, Reading asciiUni ⟨fun _ => [], fun _ => .ok (exLimConfig n)⟩ mergeSorter (exLimConfig n) (exLimHistory k) x q := by
  obtain ⟨d, hd⟩ := History.exists (u := asciiUni) (exLimUsable n h0 h1) [47] _ [] hf
  obtain ⟨x, q, _, h⟩ := reading_exists (exLimUsable n h0 h1) mergeSorter_isSorter hd hf
  exact ⟨x, q, h⟩

theorem exLimBlots (n : Int) : blotsOf asciiUni (exLimConfig n) [120, 32, 98, 32, 99, 46] = [0x050c5d7d, 0x050c5d7c] := by
  show blots 1 1 _ = _
  decide +kernel

/-- with one shard and slices of two, the third document under `fnv32 "b"` is never delivered -/
example : ∃ x q, Reading asciiUni ⟨fun _ => [], fun _ => .ok (exLimConfig 1)⟩ mergeSorter (exLimConfig 1) (exLimHistory 3) x q ∧
    Fits asciiUni (exLimConfig 1) (documents (exLimHistory 3)) ∧ (0x5d7d : UInt32).toNat < numBuckets (exLimConfig 1) ∧
    (found asciiUni (exLimConfig 1) (documents (exLimHistory 3)) 0x5d7d).length = 3 := by
  have hf : Fits asciiUni (exLimConfig 1) (documents (exLimHistory 3)) := ⟨by decide +kernel, by decide +kernel, by decide +kernel⟩
  obtain ⟨x, q, h⟩ := exLimReading 1 (by decide) (by decide) 3 hf
  exact ⟨x, q, h, hf, by decide, by decide +kernel⟩

/-- with two shards and slices of two, both documents under one of two blots are never delivered -/
example : ∃ x q, Reading asciiUni ⟨fun _ => [], fun _ => .ok (exLimConfig 2)⟩ mergeSorter (exLimConfig 2) (exLimHistory 2) x q ∧
    ∃ lost, (lost = 0x5d7d ∨ lost = 0x5d7c) ∧ (found asciiUni (exLimConfig 2) (documents (exLimHistory 2)) lost.toNat).length = 2 ∧
      ∃ K : Nat, ∀ grow ff fuel dsts, Capped 2 dsts → 2 ^ 32 ≤ ff → K < fuel →
        ∃ rs, nextCalls grow x ff fuel q dsts = .ok rs ∧ lost ∉ (delivered rs).map Blot.blot := by
  have hf : Fits asciiUni (exLimConfig 2) (documents (exLimHistory 2)) := ⟨by decide +kernel, by decide +kernel, by decide +kernel⟩
  obtain ⟨x, q, h⟩ := exLimReading 2 (by decide) (by decide) 2 hf
  have hall : ∀ d : UInt32, d.toNat < numBuckets (exLimConfig 2) ∧ 2 ≤ (found asciiUni (exLimConfig 2) (documents (exLimHistory 2)) d.toNat).length ↔
      d = 0x05d7d ∨ d = 0x05d7c := by
    intro d
    have hh : hasBlot asciiUni (exLimConfig 2) [120, 32, 98, 32, 99, 46] d.toNat = true ↔ 0x5d7d = d.toNat % 131072 ∨ 0x5d7c = d.toNat % 131072 := by
      unfold hasBlot
      rw [exLimBlots]
      have e : (exLimConfig 2).numShards.toNat * 65536 = 131072 := by decide
      rw [e]
      simp only [List.any_cons, List.any_nil, Bool.or_false, Bool.or_eq_true, decide_eq_true_eq]
      rfl
    have hd : (found asciiUni (exLimConfig 2) (documents (exLimHistory 2)) d.toNat).length =
        if hasBlot asciiUni (exLimConfig 2) [120, 32, 98, 32, 99, 46] d.toNat = true then 2 else 0 := by
      simp only [found, documents, exLimHistory, added, List.replicate, List.flatMap_cons, List.flatMap_nil, List.append_nil, List.map_cons, List.map_nil, Option.getD_some]
      by_cases hb : hasBlot asciiUni (exLimConfig 2) [120, 32, 98, 32, 99, 46] d.toNat = true
      · simp [hb]
      · simp [hb]
    have hbk : numBuckets (exLimConfig 2) = 131072 := by decide
    rw [hd, hbk]
    constructor
    · rintro ⟨h1, h2⟩
      split at h2
      · rename_i hb
        rw [hh, Nat.mod_eq_of_lt h1] at hb
        rcases hb with e | e
        · exact .inl (UInt32.toNat_inj.mp e.symm)
        · exact .inr (UInt32.toNat_inj.mp e.symm)
      · omega
    · rintro (rfl | rfl)
      · exact ⟨by decide, by rw [if_pos (hh.mpr (.inl (by decide)))]; omega⟩
      · exact ⟨by decide, by rw [if_pos (hh.mpr (.inr (by decide)))]; omega⟩
  obtain ⟨lost, h1, h2⟩ := C26_false_skips (exLimUsable 2 (by decide) (by decide)) mergeSorter_isSorter h hf (cap := 2) (by omega)
    (a := 0x5d7d) (b := 0x5d7c) (by decide) hall (by decide +kernel) (by decide +kernel)
  refine ⟨x, q, h, lost, h1, ?_, h2⟩
  rcases h1 with rfl | rfl
  · decide +kernel
  · decide +kernel

/-- the assumptions of `C26_partial` can be met with more than one shard -/
example : 2 ≤ (found asciiUni (exLimConfig 2) (documents (exLimHistory 2)) 0x5d7d).length % 3 := by decide +kernel

end Dupi.Props
