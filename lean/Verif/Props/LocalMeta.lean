import Verif.Spec.Local
import Verif.Proof.LocalMeta
import Verif.Props.AnyDir
import Verif.Props.Size
import Verif.Props.Reads

/-! C112: damage to records and names is local. -/

namespace Dupi.Props
open Spec

section
variable {u : Uni} {J : CfgCodec} {srt : Sorter} {c : Config} (hU : Usable J c) (hsrt : IsSorter srt)

theorem bucketIds_numbers (docs : List Document) (b : Nat) :
    bucketIds u c docs (b % c.numShards.toNat) (b / c.numShards.toNat % 65536) = (numbersOf u c docs b).map UInt32.ofNat := by
  have e : b / c.numShards.toNat % 65536 * c.numShards.toNat + b % c.numShards.toNat = b % (c.numShards.toNat * 65536) := by
    rw [Nat.mod_mul, Nat.add_comm, Nat.mul_comm]
  have hp : (fun s : Document => hasBlot u c s.dat (b / c.numShards.toNat % 65536 * c.numShards.toNat + b % c.numShards.toNat)) =
      fun s : Document => hasBlot u c s.dat b := by
    funext s; unfold hasBlot; rw [e]; simp only [Nat.mod_mod]
  unfold bucketIds numbersOf
  rw [hp, idsWith_numbers]

theorem mem_numbersOf {docs : List Document} {b n : Nat} : n ∈ numbersOf u c docs b ↔ ∃ i s, n = i + 1 ∧ docs[i]? = some s ∧ hasBlot u c s.dat b = true := by
  have key : ∀ (l : List Document) (k : Nat), n ∈ (((l.zipIdx k).filter fun x => hasBlot u c x.1.dat b).map (·.2)) ↔
      ∃ (i : Nat) (s : Document), n = k + i ∧ l[i]? = some s ∧ hasBlot u c s.dat b = true := by
    intro l k
    simp only [List.mem_map, List.mem_filter, Prod.exists]
    constructor
    · rintro ⟨s, m, ⟨h1, h2⟩, rfl⟩
      rw [List.mem_zipIdx_iff_le_and_getElem?_sub] at h1
      exact ⟨m - k, s, by omega, h1.2, h2⟩
    · rintro ⟨i, s, rfl, h1, h2⟩
      exact ⟨s, k + i, ⟨by rw [List.mem_zipIdx_iff_le_and_getElem?_sub]; exact ⟨by omega, by rw [Nat.add_sub_cancel_left]; exact h1⟩, h2⟩, rfl⟩
  have := key docs 1
  unfold numbersOf
  rw [this]
  constructor
  · rintro ⟨i, s, h1, h2, h3⟩; exact ⟨i, s, by omega, h2, h3⟩
  · rintro ⟨i, s, h1, h2, h3⟩; exact ⟨i, s, by omega, h2, h3⟩

include hU hsrt

/-- other metadata: `Get` -/
theorem get_with {h : Sessions} {x : Index} {q : QState} (hr : Reading u J srt c h x q) (hf : Fits u c (documents h)) {x' : Index}
    (hs : x'.shards = x.shards) (D : UInt32 → Bytes × UInt32 × UInt32) (b : UInt32)
    (hD : ∀ n ∈ numbersOf u c (documents h) b.toNat, x'.docid2Doc (UInt32.ofNat n) = .ok (D (UInt32.ofNat n)))
    (grow : Nat → Nat) (fuel : Nat) (hfuel : (documents h).length < fuel) :
    ∃ r, Query.get grow x' fuel q ⟨b, none⟩ = .ok r ∧ r.blot = b ∧ r.vis = (numbersOf u c (documents h) b.toNat).map fun n => Doc.ofMeta (D (UInt32.ofNat n)) := by
  obtain ⟨h1, _, _, h2, _⟩ := hr.rep hU hsrt hf
  have hn := hU.shards
  have hn' := hU.shardsSmall
  obtain ⟨hz, s, rs, g1, g2, g3, _⟩ := Query.get_route h1 (by omega) (by omega) b h2
  rw [bucketIds_numbers] at g3
  have hl : ((numbersOf u c (documents h) b.toNat).map UInt32.ofNat).length < fuel := by
    rw [← bucketIds_numbers]
    exact Nat.lt_of_le_of_lt (idsWith_length _ _ _) hfuel
  obtain ⟨r, k1, k2, k3, _⟩ := Query.getLoop_unlim grow (x := x') (D := D) _ fuel rs ⟨b, none⟩ g3 (by
    intro id hid
    obtain ⟨n, hn, rfl⟩ := List.mem_map.mp hid
    exact hD n hn) hl
  refine ⟨r, ?_, k2, ?_⟩
  · unfold Query.get
    rw [if_neg hz]
    simp only [hs, g1, g2, bind, Except.bind, Option.isSome_none]
    exact k1
  · rw [k3, List.map_map]; rfl

/-- other metadata: the whole of an index' answers -/
structure Answering (u : Uni) (c : Config) (docs : List Document) (x : Index) (q : QState) (D : Nat → Doc) : Prop where
  get : ∀ grow (b : UInt32) fuel, docs.length < fuel →
    ∃ r, Query.get grow x fuel q ⟨b, none⟩ = .ok r ∧ r.blot = b ∧ r.vis = (numbersOf u c docs b.toNat).map D
  next : ∃ E : List UInt32, E.Nodup ∧ (∀ b : UInt32, b ∈ E ↔ b.toNat < numBuckets c ∧ 2 ≤ (found u c docs b.toNat).length) ∧
    E.Pairwise (fun a b => (found u c docs b.toNat).length ≤ (found u c docs a.toNat).length) ∧
    ∀ grow ff fuel dsts, (∀ dst ∈ dsts, ∀ b ∈ dst, b.docs = none) → 2 ^ 32 ≤ ff → E.length + c.numShards.toNat + 2 ^ 32 < fuel →
      ∃ rs, nextCalls grow x ff fuel q dsts = .ok rs ∧ Enumerates (fun b => (numbersOf u c docs b.toNat).map D) E dsts rs

theorem nextCalls_with {h : Sessions} {x : Index} {D : UInt32 → Bytes × UInt32 × UInt32} (hx : Holds srt x c.numShards.toNat (bucketIds u c (documents h)) D)
    (grow : Nat → Nat) (ff fuel : Nat) (hff : 2 ^ 32 ≤ ff) : ∀ (dsts : List (List Blot)) (q : QState) (E : List (Nat × Nat)),
    Query.Delivers x c.numShards.toNat (bucketIds u c (documents h)) D q E →
    (∀ jb ∈ E, jb.1 < c.numShards.toNat ∧ jb.2 < 65536 ∧ 2 ≤ (bucketIds u c (documents h) jb.1 jb.2).length) →
    (∀ dst ∈ dsts, ∀ b ∈ dst, b.docs = none) → E.length + c.numShards.toNat + 2 ^ 32 < fuel →
    ∃ rs, nextCalls grow x ff fuel q dsts = .ok rs ∧
      Enumerates (fun b => (numbersOf u c (documents h) b.toNat).map fun n => Doc.ofMeta (D (UInt32.ofNat n))) (E.map (blotNum c.numShards.toNat)) dsts rs := by
  intro dsts
  have hn := hU.shards
  have hn' := hU.shardsSmall
  induction dsts with
  | nil => intro q E _ _ _ _; exact ⟨[], rfl, trivial⟩
  | cons dst dsts ih =>
    intro q E hE hmem hnil hfuel
    have hgo := Query.toGo_le q
    obtain ⟨r, e1, e2⟩ := Query.nextLoop_delivers hsrt hx (by omega) grow hff hE 0 fuel dst
      (fun i b _ hb => hnil dst (by simp) b (List.mem_of_getElem? hb)) (Nat.zero_le _) (by omega)
    have hrest := e2.rest
    rw [Nat.sub_zero] at hrest
    obtain ⟨rs, k1, k2⟩ := ih r.state (E.drop dst.length) hrest (fun jb hjb => hmem jb (List.mem_of_mem_drop hjb))
      (fun d hd => hnil d (by simp [hd])) (by simp; omega)
    refine ⟨r :: rs, by simp only [nextCalls, Query.next, e1, bind, Except.bind, k1, pure, Except.pure], ?_, ?_, e2.len, ?_, ?_⟩
    · have := e2.count; simpa using this
    · rw [e2.eof, e2.count]
      cases E with
      | nil => simp
      | cons a E =>
        cases dst with
        | nil => simp
        | cons b dst => simp
    · intro i b hi hb
      rw [List.getElem?_map, Option.map_eq_some_iff] at hb
      obtain ⟨⟨j, bk⟩, hjb, rfl⟩ := hb
      obtain ⟨bl, b1, b2, b3⟩ := e2.new i j bk (by omega) hjb
      rw [Nat.zero_add] at b1
      refine ⟨bl, b1, b2, ?_⟩
      obtain ⟨m1, m2, m3⟩ := hmem _ (List.mem_of_getElem? hjb)
      simp only at m1 m2 m3
      have hs := bucket_small m1 m2 (by intro hc; rw [hc] at m3; simp at m3)
      have hnum : (blotNum c.numShards.toNat (j, bk)).toNat = bk * c.numShards.toNat + j := by
        simp only [blotNum, UInt32.toNat_ofNat']; omega
      show bl.vis = (numbersOf u c (documents h) (blotNum c.numShards.toNat (j, bk)).toNat).map fun n => Doc.ofMeta (D (UInt32.ofNat n))
      have hb' := bucketIds_numbers (u := u) (c := c) (documents h) (bk * c.numShards.toNat + j)
      have e1 : (bk * c.numShards.toNat + j) % c.numShards.toNat = j := by
        rw [Nat.mul_add_mod_self_right, Nat.mod_eq_of_lt m1]
      have e2 : (bk * c.numShards.toNat + j) / c.numShards.toNat % 65536 = bk := by
        rw [Nat.mul_comm, Nat.mul_add_div (by omega), Nat.div_eq_of_lt m1, Nat.add_zero, Nat.mod_eq_of_lt m2]
      rw [e1, e2] at hb'
      rw [b3, hb', hnum, List.map_map]; rfl
    · rw [← List.map_drop]; exact k2

theorem enumeration_with {h : Sessions} {x : Index} {q : QState} {D : UInt32 → Bytes × UInt32 × UInt32}
    (h1 : Holds srt x c.numShards.toNat (bucketIds u c (documents h)) D) (hq : x.startQuery = .ok q) (hf : Fits u c (documents h)) :
    ∃ E, Query.Delivers x c.numShards.toNat (bucketIds u c (documents h)) D q E ∧
      (∀ jb ∈ E, jb.1 < c.numShards.toNat ∧ jb.2 < 65536 ∧ 2 ≤ (bucketIds u c (documents h) jb.1 jb.2).length) ∧
      (E.map (blotNum c.numShards.toNat)).Nodup ∧
      (∀ b : UInt32, b ∈ E.map (blotNum c.numShards.toNat) ↔ b.toNat < numBuckets c ∧ 2 ≤ (found u c (documents h) b.toNat).length) ∧
      (E.map (blotNum c.numShards.toNat)).Pairwise (fun a b => (found u c (documents h) b.toNat).length ≤ (found u c (documents h) a.toNat).length) := by
  have hn := hU.shards
  have hn' := hU.shardsSmall
  obtain ⟨q', k0, h2, _⟩ := Query.startQuery_rep hsrt h1 (by omega) (by omega)
  rw [hq] at k0; injection k0 with k0; subst k0
  obtain ⟨E, e1, e2, e3, e4⟩ := Query.delivers hsrt h1 (by omega) _ q _ h2 (Query.allDup_nodup hsrt h1) rfl
  have hmem : ∀ jb ∈ E, jb.1 < c.numShards.toNat ∧ jb.2 < 65536 ∧ 2 ≤ (bucketIds u c (documents h) jb.1 jb.2).length := by
    rintro ⟨j, b⟩ hjb
    exact (Query.allDup_mem hsrt h1 j b).mp ((e3 j b).mp hjb)
  have hnum : ∀ jb ∈ E, (blotNum c.numShards.toNat jb).toNat = jb.2 * c.numShards.toNat + jb.1 := by
    intro jb hjb
    obtain ⟨m1, m2, m3⟩ := hmem jb hjb
    have := bucket_small m1 m2 (by intro hc; rw [hc] at m3; simp at m3)
    simp only [blotNum, UInt32.toNat_ofNat']; omega
  have split : ∀ j b, j < c.numShards.toNat → b < 65536 → (b * c.numShards.toNat + j) % c.numShards.toNat = j ∧
      (b * c.numShards.toNat + j) / c.numShards.toNat % 65536 = b := by
    intro j b hj hb
    constructor
    · rw [Nat.mul_add_mod_self_right, Nat.mod_eq_of_lt hj]
    · rw [Nat.mul_comm, Nat.mul_add_div (by omega), Nat.div_eq_of_lt hj, Nat.add_zero, Nat.mod_eq_of_lt hb]
  have hlen : ∀ jb ∈ E, (found u c (documents h) (blotNum c.numShards.toNat jb).toNat).length = (bucketIds u c (documents h) jb.1 jb.2).length := by
    intro jb hjb
    obtain ⟨m1, m2, m3⟩ := hmem jb hjb
    obtain ⟨s1, s2⟩ := split jb.1 jb.2 m1 m2
    rw [hnum jb hjb, ← bucketIds_length_found u c _ hf.ids, s1, s2]
  refine ⟨E, e1, hmem, ?_, ?_, ?_⟩
  · rw [List.Nodup, List.pairwise_map]
    refine List.Pairwise.imp_of_mem ?_ e2
    intro a b ha hb hne he
    apply hne
    have he := congrArg UInt32.toNat he
    rw [hnum a ha, hnum b hb] at he
    obtain ⟨m1, m2, _⟩ := hmem a ha
    obtain ⟨m3, m4, _⟩ := hmem b hb
    obtain ⟨s1, s2⟩ := split a.1 a.2 m1 m2
    obtain ⟨s3, s4⟩ := split b.1 b.2 m3 m4
    rw [he] at s1 s2
    exact Prod.ext (s1.symm.trans s3) (s2.symm.trans s4)
  · intro b
    constructor
    · intro hb
      obtain ⟨jb, hjb, rfl⟩ := List.mem_map.mp hb
      obtain ⟨m1, m2, m3⟩ := hmem jb hjb
      refine ⟨?_, by rw [hlen jb hjb]; exact m3⟩
      rw [hnum jb hjb, numBuckets]
      have := Nat.mul_le_mul_right c.numShards.toNat (show jb.2 ≤ 65535 by omega)
      omega
    · rintro ⟨hb1, hb2⟩
      rw [← bucketIds_length_found u c _ hf.ids] at hb2
      refine List.mem_map.mpr ⟨(b.toNat % c.numShards.toNat, b.toNat / c.numShards.toNat % 65536), ?_, ?_⟩
      · rw [e3]
        exact (Query.allDup_mem hsrt h1 _ _).mpr ⟨Nat.mod_lt _ (by omega), Nat.mod_lt _ (by omega), hb2⟩
      · apply UInt32.toNat_inj.mp
        simp only [blotNum, UInt32.toNat_ofNat']
        have e : b.toNat / c.numShards.toNat % 65536 * c.numShards.toNat + b.toNat % c.numShards.toNat = b.toNat % (c.numShards.toNat * 65536) := by
          rw [Nat.mod_mul, Nat.add_comm, Nat.mul_comm]
        have e' : b.toNat % (c.numShards.toNat * 65536) = b.toNat := Nat.mod_eq_of_lt hb1
        rw [e, e', Nat.mod_eq_of_lt b.toNat_lt]
  · rw [List.pairwise_map]
    refine List.Pairwise.imp_of_mem ?_ e4
    intro a b ha hb hle
    rw [hlen a ha, hlen b hb]; exact hle

theorem answering {h : Sessions} {x : Index} {q : QState} (hr : Reading u J srt c h x q) (hf : Fits u c (documents h)) {x' : Index}
    (hs : x'.shards = x.shards) (D : UInt32 → Bytes × UInt32 × UInt32)
    (hD : ∀ id : UInt32, 1 ≤ id.toNat → id.toNat ≤ (documents h).length → x'.docid2Doc id = .ok (D id)) :
    x'.startQuery = .ok q ∧ Answering u c (documents h) x' q fun n => Doc.ofMeta (D (UInt32.ofNat n)) := by
  obtain ⟨h1, _⟩ := hr.rep hU hsrt hf
  have hids := hf.ids
  have hsq : x'.startQuery = .ok q := by rw [← hr.start]; unfold Index.startQuery; rw [hs]
  have hx' : Holds srt x' c.numShards.toNat (bucketIds u c (documents h)) D := by
    refine ⟨by rw [hs]; exact h1.len, by rw [hs]; exact h1.sh, fun j k _ _ id hid => ?_⟩
    have := idsWith_mem _ (documents h) 1 (by omega) id hid
    exact hD id this.1 (by omega)
  refine ⟨hsq, fun grow b fuel hfuel => ?_, ?_⟩
  · refine get_with hU hsrt hr hf hs D b (fun n hn => ?_) grow fuel hfuel
    obtain ⟨i, s, rfl, h2, _⟩ := mem_numbersOf.mp hn
    have := (List.getElem?_eq_some_iff.mp h2).1
    have e : (UInt32.ofNat (i + 1)).toNat = i + 1 := by rw [UInt32.toNat_ofNat']; omega
    exact hD _ (by omega) (by omega)
  · obtain ⟨E, e1, e2, e3, e4, e5⟩ := enumeration_with hU hsrt hx' hsq hf
    exact ⟨_, e3, e4, e5, fun grow ff fuel dsts hnil hff hfuel => nextCalls_with hU hsrt hx' grow ff fuel hff dsts q E e1 e2 hnil (by simpa using hfuel)⟩

omit hU hsrt in
theorem set_same {d : Dir} {g : File} {f : Bytes} (h : d g = some f) : d.set g f = d := by
  funext g'
  simp only [Dir.set]
  by_cases e : g' = g
  · rw [if_pos e, e, h]
  · rw [if_neg e]

/-- another metadata file or another path table -/
theorem other_meta {h : Sessions} {d : Dir} (hd : History u J c h d) (hf : Fits u c (documents h)) :
    ∃ x q, Reading u J srt c h x q ∧ (∃ w t fs, d .fnm = some w ∧ w = Fnames.write t ∧ d .dmd = some x.dmd ∧ x.dmd = (Dmd.zeroFields :: fs).flatMap Dmd.encode ∧
        MetaRep t fs (documents h)) ∧
      (∀ f', Index.open J srt (d.set .dmd f') = .ok { x with dmd := f' }) ∧
      (∀ w' t', Fnames.read w' = .ok t' → Index.open J srt (d.set .fnm w') = .ok { x with fnames := t' }) ∧
      (∀ id : UInt32, 1 ≤ id.toNat → id.toNat ≤ (documents h).length → x.docid2Doc id = .ok (metaOf (documents h) id)) := by
  have hrep := History.rep hU hd hf
  obtain ⟨x, q, h1, hr⟩ := reading_exists hU hsrt hd hf
  obtain ⟨t, fs, k1, k2, k3⟩ := hrep.front
  obtain ⟨_, h2, ⟨w, h3, h3'⟩, _⟩ := openIndex_inv h1
  have hxd : x.dmd = (Dmd.zeroFields :: fs).flatMap Dmd.encode := by rw [k2] at h2; injection h2 with h2; exact h2.symm
  rw [k1] at h3; injection h3 with h3; subst h3
  refine ⟨x, q, hr, ⟨_, t, fs, k1, rfl, h2, hxd, k3⟩, fun f' => ?_, fun w' t' ht => ?_, fun id i1 i2 => ?_⟩
  · have := open_with_meta h1 (dmd := f') h3'
    rwa [set_same (d := d.set .dmd f') (g := .fnm) (by simp [Dir.set]; exact k1)] at this
  · have := open_with_meta h1 (dmd := x.dmd) ht
    rwa [set_same h2] at this
  · have hsz := k3.small hf.paths
    obtain ⟨t', m1, m2⟩ := Fnames.read_write t k3.wf (by omega) k3.names
    rw [h3'] at m1; injection m1 with m1
    have := docid2Doc_rep (k3.sim m2) (documents_rooted h) x.config x.shards i1 i2
    rw [← hxd, ← m1] at this
    exact this

omit hU hsrt in
theorem lookup_same {f f' : Bytes} {id : UInt32} {r : Fields} (h : SameRecord f f' id.toNat) (hr : Dmd.lookup f id = .ok r) : Dmd.lookup f' id = .ok r := by
  have hl : 12 * (id.toNat + 1) ≤ f.length := by
    false_or_by_contra
    obtain ⟨e, he⟩ := (lookup_exact f id).2 (by omega)
    rw [hr] at he; cases he
  have hl' : 12 * (id.toNat + 1) ≤ f'.length := by
    have h1 := h (12 * id.toNat + 11) (by omega) (by omega)
    rw [List.getElem?_eq_getElem (show 12 * id.toNat + 11 < f.length by omega)] at h1
    have := (List.getElem?_eq_some_iff.mp h1).1
    omega
  have hp := Fnames.piece_eq (f := f') (g := f) (o := id.toNat * 12) (l := 12) (fun i hi => h _ (by omega) (by omega))
  unfold Dmd.lookup readFull at hr ⊢
  rw [if_pos (by simp only [Dmd.rcdSize, List.length_drop]; omega)] at hr
  rw [if_pos (by simp only [Dmd.rcdSize, List.length_drop]; omega)]
  simp only [bind, Except.bind, Dmd.rcdSize] at hr ⊢
  rw [hp]; exact hr

omit hU hsrt in
theorem docid2Doc_same {x : Index} {f' : Bytes} {id : UInt32} {m : Bytes × UInt32 × UInt32} (h : SameRecord x.dmd f' id.toNat) (hm : x.docid2Doc id = .ok m) :
    Index.docid2Doc { x with dmd := f' } id = .ok m := by
  cases hr : Dmd.lookup x.dmd id with
  | error e =>
    simp only [Index.docid2Doc, hr] at hm
    cases e <;> cases hm
  | ok r =>
    simp only [Index.docid2Doc, hr] at hm
    simp only [Index.docid2Doc, lookup_same h hr]
    exact hm

/-- **C112**, records.  Whatever else is in the metadata file, the index opens, and `Get` of every blot whose documents have their records (twelve bytes each, the
first of them for document 1 at 12) returns exactly what it returned before. -/
theorem C112_records {h : Sessions} {d : Dir} (hd : History u J c h d) (hf : Fits u c (documents h)) {f : Bytes} (hfd : d .dmd = some f) (f' : Bytes) :
    ∃ x q, Index.open J srt (d.set .dmd f') = .ok x ∧ x.startQuery = .ok q ∧
      ∀ grow (b : UInt32) fuel, (documents h).length < fuel → (∀ n ∈ numbersOf u c (documents h) b.toNat, SameRecord f f' n) →
        ∃ r, Query.get grow x fuel q ⟨b, none⟩ = .ok r ∧ r.blot = b ∧ r.vis = (found u c (documents h) b.toNat).map Document.shown := by
  obtain ⟨x, q, hr, ⟨w, t, fs, _, _, k3, _⟩, h1, _, h3⟩ := other_meta hU hsrt hd hf
  rw [hfd] at k3; injection k3 with k3; subst k3
  have hids := hf.ids
  refine ⟨_, q, h1 f', by rw [← hr.start]; rfl, fun grow b fuel hfuel hb => ?_⟩
  obtain ⟨r, a1, a2, a3⟩ := get_with hU hsrt hr hf (x' := { x with dmd := f' }) rfl (metaOf (documents h)) b (fun n hn => by
    obtain ⟨i, s, rfl, g1, _⟩ := mem_numbersOf.mp hn
    have := (List.getElem?_eq_some_iff.mp g1).1
    have e : (UInt32.ofNat (i + 1)).toNat = i + 1 := by rw [UInt32.toNat_ofNat']; omega
    exact docid2Doc_same (by rw [e]; exact hb _ hn) (h3 _ (by omega) (by omega))) grow fuel hfuel
  refine ⟨r, a1, a2, ?_⟩
  rw [a3, ← bucketIds_found u c _ hids, bucketIds_numbers, List.map_map]; rfl

/-- **C112**, one byte of a record: only the blots of one document can be answered otherwise. -/
theorem C112_record_byte {h : Sessions} {d : Dir} (hd : History u J c h d) (hf : Fits u c (documents h)) {f : Bytes} (hfd : d .dmd = some f) (i : Nat) (v : UInt8) :
    ∃ x q, Index.open J srt (d.set .dmd (f.set i v)) = .ok x ∧ x.startQuery = .ok q ∧
      ∀ grow (b : UInt32) fuel, (documents h).length < fuel → i / 12 ∉ numbersOf u c (documents h) b.toNat →
        ∃ r, Query.get grow x fuel q ⟨b, none⟩ = .ok r ∧ r.blot = b ∧ r.vis = (found u c (documents h) b.toNat).map Document.shown := by
  obtain ⟨x, q, h1, h2, h3⟩ := C112_records hU hsrt hd hf hfd (f.set i v)
  refine ⟨x, q, h1, h2, fun grow b fuel hfuel hb => h3 grow b fuel hfuel fun n hn j hj1 hj2 => ?_⟩
  rw [List.getElem?_set_ne]
  intro e
  apply hb
  rwa [show i / 12 = n by omega]

/-- **C112**, where documents begin and end.  When every record keeps its number of a path, all queries go on as before, the documents in their
order and with their paths; the documents whose records are the same are shown as they were. -/
theorem C112_ends {h : Sessions} {d : Dir} (hd : History u J c h d) (hf : Fits u c (documents h)) {f : Bytes} (hfd : d .dmd = some f) (f' : Bytes)
    (hl : f'.length = f.length) (hf' : ∀ i, i % 12 < 4 → f'[i]? = f[i]?) :
    ∃ x q D, Index.open J srt (d.set .dmd f') = .ok x ∧ x.startQuery = .ok q ∧ Answering u c (documents h) x q D ∧
      ∀ (i : Nat) s, (documents h)[i]? = some s → (D (i + 1)).path = s.path ∧ (D (i + 1)).dat = none ∧ (SameRecord f f' (i + 1) → D (i + 1) = s.shown) := by
  obtain ⟨x, q, hr, ⟨w, t, fs, _, _, k3, k4, k5⟩, h1, _, h3⟩ := other_meta hU hsrt hd hf
  rw [hfd] at k3; injection k3 with k3; subst k3
  have hids := hf.ids
  have hlen := Dmd.encodeAll_length (Dmd.zeroFields :: fs)
  rw [← k4, List.length_cons, k5.len] at hlen
  have key : ∀ id : UInt32, ∃ m : Bytes × UInt32 × UInt32, 1 ≤ id.toNat → id.toNat ≤ (documents h).length →
      Index.docid2Doc { x with dmd := f' } id = .ok m ∧ m.1 = (metaOf (documents h) id).1 ∧ (SameRecord x.dmd f' id.toNat → m = metaOf (documents h) id) := by
    intro id
    by_cases hc : 1 ≤ id.toNat ∧ id.toNat ≤ (documents h).length
    · have g0 := h3 id hc.1 hc.2
      have e4 : (f'.drop (12 * id.toNat)).take 4 = (x.dmd.drop (12 * id.toNat)).take 4 :=
        Fnames.piece_eq fun i hi => hf' _ (by omega)
      obtain ⟨r, a1, a2⟩ := (lookup_exact x.dmd id).1 _ ⟨by omega, rfl⟩
      obtain ⟨r', b1, b2⟩ := (lookup_exact f' id).1 _ ⟨by omega, rfl⟩
      have hfid : r'.fid = r.fid := UInt32.toNat_inj.mp (by rw [b2, a2, e4])
      simp only [Index.docid2Doc, a1, bind, Except.bind] at g0
      cases ha : Fnames.abs x.fnames r.fid with
      | error e => rw [ha] at g0; cases g0
      | ok p =>
        rw [ha] at g0
        simp only [pure, Except.pure, Except.ok.injEq] at g0
        have hd' : Index.docid2Doc { x with dmd := f' } id = .ok (p, r'.start, r'.stop) := by
          simp only [Index.docid2Doc, b1, hfid, ha, bind, Except.bind, pure, Except.pure]
        refine ⟨(p, r'.start, r'.stop), fun _ _ => ⟨hd', by rw [← g0], fun hsame => ?_⟩⟩
        have := docid2Doc_same hsame (h3 id hc.1 hc.2)
        rw [hd'] at this; injection this
    · exact ⟨([], 0, 0), fun a b => absurd ⟨a, b⟩ hc⟩
  obtain ⟨D, hD⟩ := Classical.axiomOfChoice key
  obtain ⟨a1, a2⟩ := answering hU hsrt hr hf (x' := { x with dmd := f' }) rfl D (fun id i1 i2 => (hD id i1 i2).1)
  refine ⟨_, q, _, h1 f', a1, a2, fun i s hs => ?_⟩
  have hi := (List.getElem?_eq_some_iff.mp hs).1
  have e : (UInt32.ofNat (i + 1)).toNat = i + 1 := by rw [UInt32.toNat_ofNat']; omega
  obtain ⟨_, b2, b3⟩ := hD (UInt32.ofNat (i + 1)) (by omega) (by omega)
  have hm : metaOf (documents h) (UInt32.ofNat (i + 1)) = s.meta := by
    unfold metaOf; rw [e, Nat.add_sub_cancel, hs]
  rw [e] at b3
  rw [hm] at b2 b3
  refine ⟨b2, rfl, fun hsame => ?_⟩
  show Doc.ofMeta (D _) = _
  rw [b3 hsame]; rfl

/-- **C112**, names.  The bytes of the path table that are in names can be told: those of the path `q`, or of the directory `q` on the way to a path, spell what is
behind its last slash.  Whatever becomes of them, all queries go on as before, with the same documents, and documents none of whose names has changed are
shown as they were. -/
theorem C112_names {h : Sessions} {d : Dir} (hd : History u J c h d) (hf : Fits u c (documents h)) {w : Bytes} (hw : d .fnm = some w) :
    ∃ own : Nat → Option Bytes,
      (∀ s ∈ documents h, ∀ q ∈ ways s.path, ((List.range w.length).filter (fun i => own i = some q)).map (fun i => w[i]?) = (lastPart q).map some) ∧
      ∀ w' : Bytes, w'.length = w.length → (∀ i, own i = none → w'[i]? = w[i]?) →
        ∃ x q D, Index.open J srt (d.set .fnm w') = .ok x ∧ x.startQuery = .ok q ∧ Answering u c (documents h) x q D ∧
          ∀ (i : Nat) s, (documents h)[i]? = some s → (D (i + 1)).start = s.start ∧ (D (i + 1)).stop = s.stop ∧ (D (i + 1)).dat = none ∧
            ((∀ p ∈ ways s.path, ∀ k, own k = some p → w'[k]? = w[k]?) → D (i + 1) = s.shown) := by
  obtain ⟨x, q, hr, ⟨w0, t, fs, k0, k1, k3, k4, k5⟩, _, h2, _⟩ := other_meta hU hsrt hd hf
  rw [hw] at k0; injection k0 with k0; subst k0
  have hids := hf.ids
  have hsz := k5.small hf.paths
  have hwf := k5.wf
  obtain ⟨hdr, hhdr⟩ : ∃ hdr, hdr = Fnames.writeUvarint32 (UInt32.ofNat t.length) := ⟨_, rfl⟩
  obtain ⟨W, hW⟩ : ∃ W, W = t.flatMap Fnames.writeNode := ⟨_, rfl⟩
  have hwW : w = hdr ++ W := by rw [k1, hhdr, hW]; rfl
  -- the parts of the nodes
  have hex : ∀ k, ∃ cs, k < t.length → Fnames.Comps t k cs := by
    intro k
    by_cases hk : k < t.length
    · obtain ⟨cs, h, _⟩ := hwf.comps k hk; exact ⟨cs, fun _ => h⟩
    · exact ⟨[], fun h => absurd h hk⟩
  obtain ⟨nm, hnm⟩ := Classical.axiomOfChoice hex
  have hlt : ∀ {k cs}, Fnames.Comps t k cs → k < t.length := by
    intro k cs hc
    cases hc with
    | root => obtain ⟨r, hr0, _⟩ := hwf.root; exact (List.getElem?_eq_some_iff.mp hr0).1
    | step _ hn _ => exact (List.getElem?_eq_some_iff.mp hn).1
  have hpath : ∀ s ∈ documents h, ∃ r, s.path = 47 :: r ∧ Fnames.pathParts s.path = splitSlash r := by
    intro s hs
    obtain ⟨cwd, p, hp⟩ := documents_rooted h s hs
    obtain ⟨r, hr1, hr2⟩ := Fnames.pathParts_abs cwd p
    rw [hp]; exact ⟨r, hr1, hr2⟩
  have hplain : ∀ {k cs}, Fnames.Comps t k cs → ∀ e ∈ cs, (47 : UInt8) ∉ e := by
    intro k cs hc e he
    rcases k5.cover k cs hc with h0 | ⟨s, hs, hpre⟩
    · rw [h0] at he; cases he
    · obtain ⟨r, _, hr2⟩ := hpath s hs
      rw [hr2] at hpre
      exact Fnames.splitSlash_plain r e (hpre.subset he)
  have hne : ∀ {k cs}, Fnames.Comps t k cs → (k ≠ 0 ↔ cs ≠ []) := by
    intro k cs hc
    cases hc with
    | root => simp
    | step hi _ _ => simp [hi]
  obtain ⟨own, hown⟩ : ∃ own : Nat → Option Bytes, ∀ i, own i =
      if i < hdr.length then none else (Fnames.nameAt 0 t (i - hdr.length)).bind fun k => if k = 0 then none else some (47 :: joinSlash (nm k)) := ⟨_, fun _ => rfl⟩
  have hown' : ∀ {j cs}, Fnames.Comps t j cs → cs ≠ [] → ∀ i, own (hdr.length + i) = some (47 :: joinSlash cs) ↔ Fnames.nameAt 0 t i = some j := by
    intro j cs hc h0 i
    rw [hown, if_neg (by omega), Nat.add_sub_cancel_left]
    have hj := hlt hc
    have ej : nm j = cs := (hnm j hj).det hc
    constructor
    · intro he
      rw [Option.bind_eq_some_iff] at he
      obtain ⟨k, g1, g2⟩ := he
      have hk := (Fnames.nameAt_ge _ _ _ _ g1).2.1
      by_cases hk0 : k = 0
      · rw [if_pos hk0] at g2; cases g2
      · rw [if_neg hk0] at g2
        injection g2 with g2
        injection g2 with _ g2
        have hck := hnm k (by omega)
        have := Fnames.join_inj ((hne hck).mp hk0) h0 (hplain hck) (hplain hc) g2
        rw [this] at hck
        rw [g1, hwf.comps_inj hck hc]
    · intro he
      rw [he]
      simp only [Option.bind_some]
      rw [if_neg ((hne hc).mpr h0), ej]
  refine ⟨own, fun s hs p hp => ?_, fun w' hl hw' => ?_⟩
  · obtain ⟨r, hr1, hr2⟩ := hpath s hs
    obtain ⟨cs, c1, c2, c3⟩ := Fnames.way_parts hr1 hp
    obtain ⟨f, hfs⟩ : ∃ f, ∃ n : Nat, (documents h)[n]? = some s ∧ fs[n]? = some f := by
      obtain ⟨n, hn, hn'⟩ := List.getElem_of_mem hs
      exact ⟨fs[n]'(by rw [k5.len]; exact hn), n, by rw [← hn']; exact List.getElem?_eq_getElem hn, List.getElem?_eq_getElem _⟩
    obtain ⟨n, hn1, hn2⟩ := hfs
    have hcomp := (k5.desc n f s hn2 hn1).comps
    rw [hr2] at hcomp
    obtain ⟨tl, htl⟩ := c2
    obtain ⟨j, hj⟩ := hcomp.prefix cs tl htl.symm
    obtain ⟨cs0, last, hcs⟩ : ∃ cs0 last, cs = cs0 ++ [last] := by
      rcases List.eq_nil_or_concat cs with rfl | ⟨a, b, rfl⟩
      · exact absurd rfl c1
      · exact ⟨a, b, by simp⟩
    have hj' := hj
    rw [hcs] at hj'
    obtain ⟨nd, _, g2, g3, _⟩ := hj'.parent
    have hlast : lastPart p = nd.name := by
      rw [c3, hcs, Fnames.lastPart_join (hplain hj last (by rw [hcs]; simp)), g3]
    rw [hlast, ← Fnames.nameAt_spells t 0 j nd g2, hwW, List.length_append, List.range_add, List.filter_append, List.map_append,
      Fnames.filter_none (l := List.range hdr.length) (fun i hi => by
        rw [hown, if_pos (by simpa using hi)]; simp), List.map_nil, List.nil_append, List.filter_map, List.map_map, ← hW]
    have e5 : ((fun i => decide (own i = some p)) ∘ fun x => hdr.length + x) = fun i => decide (Fnames.nameAt 0 t i = some (0 + j)) := by
      funext i
      simp only [Function.comp]
      rw [decide_eq_decide, Nat.zero_add, c3]
      exact hown' hj c1 i
    rw [e5]
    apply List.map_congr_left
    intro i _
    simp only [Function.comp]
    rw [List.getElem?_append_right (by omega), Nat.add_sub_cancel_left]
  · have hwl : w.length = hdr.length + W.length := by rw [hwW, List.length_append]
    have hWget : ∀ i, w[hdr.length + i]? = W[i]? := by
      intro i; rw [hwW, List.getElem?_append_right (by omega), Nat.add_sub_cancel_left]
    have p1 : w'.take hdr.length = hdr := by
      have := Fnames.piece_eq (f := w') (g := w) (o := 0) (l := hdr.length) (fun i hi => by
        rw [Nat.zero_add]; exact hw' i (by rw [hown, if_pos hi]))
      rw [List.drop_zero, List.drop_zero] at this
      rw [this, hwW, List.take_left]
    obtain ⟨ns', g1, g2, g3⟩ := Fnames.renamed t 0 (w'.drop hdr.length) (by rw [List.length_drop, hl, hwl, ← hW]; omega) (by
      intro i hi
      rw [List.getElem?_drop, ← hW, ← hWget]
      exact hw' _ (by rw [hown, if_neg (by omega), Nat.add_sub_cancel_left, hi]; rfl))
    have hw'' : w' = Fnames.write ns' := by
      unfold Fnames.write
      rw [g2, ← g1, ← hhdr]
      conv => lhs; rw [← List.take_append_drop hdr.length w', p1]
    have hback : ∀ n' ∈ ns', ∃ n ∈ t, n'.parent = n.parent ∧ n'.name.length = n.name.length := by
      intro n' hn'
      obtain ⟨j, hj, hj'⟩ := List.getElem_of_mem hn'
      obtain ⟨n2, a1, a2, a3, _⟩ := g3 j _ (List.getElem?_eq_getElem (show j < t.length by omega))
      rw [List.getElem?_eq_getElem hj, hj'] at a1
      injection a1 with a1
      subst a1
      exact ⟨_, List.getElem_mem _, a2, a3⟩
    have hpar : ∀ n ∈ t, n.parent.toNat < t.length := by
      intro n hn
      obtain ⟨j, hj, hj'⟩ := List.getElem_of_mem hn
      have hjn : t[j]? = some n := by rw [List.getElem?_eq_getElem hj, hj']
      by_cases h0 : j = 0
      · obtain ⟨r, hr0, hr1, _⟩ := hwf.root
        rw [h0, hr0] at hjn; injection hjn with hjn
        rw [← hjn, hr1]; show 0 < _; omega
      · have := hwf.parentLt j n hjn h0; omega
    obtain ⟨t', m1, m2⟩ := Fnames.read_names (t := ns') (by omega)
      (fun n' hn' => by obtain ⟨n, hn, _, e⟩ := hback n' hn'; rw [e]; exact k5.names n hn)
      (fun n' hn' => by obtain ⟨n, hn, e, _⟩ := hback n' hn'; rw [e, g2]; exact hpar n hn)
    rw [← hw''] at m1
    have ho := h2 w' t' m1
    have htl : t'.length = t.length := by
      have := congrArg List.length m2
      simp only [List.length_map] at this
      omega
    have key : ∀ id : UInt32, ∃ m : Bytes × UInt32 × UInt32, ∀ s, (documents h)[id.toNat - 1]? = some s → 1 ≤ id.toNat →
        Index.docid2Doc { x with fnames := t' } id = .ok m ∧ m.2 = (s.start, s.stop) ∧
          ((∀ p ∈ ways s.path, ∀ k, own k = some p → w'[k]? = w[k]?) → m.1 = s.path) := by
      intro id
      by_cases hc : 1 ≤ id.toNat ∧ id.toNat ≤ (documents h).length
      · obtain ⟨s, hs⟩ : ∃ s, (documents h)[id.toNat - 1]? = some s := ⟨_, List.getElem?_eq_getElem (by omega)⟩
        obtain ⟨f, hfs⟩ : ∃ f, fs[id.toNat - 1]? = some f := ⟨_, List.getElem?_eq_getElem (by rw [k5.len]; omega)⟩
        have hde := k5.desc _ f s hfs hs
        have hget : (Dmd.zeroFields :: fs)[id.toNat]? = some f := by
          rw [show id.toNat = (id.toNat - 1) + 1 by omega]; exact hfs
        obtain ⟨hlt', hge⟩ := List.getElem?_eq_some_iff.mp hget
        have hlk := Dmd.lookup_encode (Dmd.zeroFields :: fs) id hlt'
        rw [hge, ← k4] at hlk
        obtain ⟨r, hr1, hr2⟩ := hpath s (List.mem_of_getElem? hs)
        obtain ⟨cs', c1, c2⟩ := hde.comps.renamed (t' := ns') (K := fun j => ∀ i, Fnames.nameAt 0 t i = some (0 + j) → (w'.drop hdr.length)[i]? = (t.flatMap Fnames.writeNode)[i]?)
          (fun j n hn => by obtain ⟨n', a1, a2, _, a4⟩ := g3 j n hn; exact ⟨n', a1, a2, a4⟩)
        have hle : Leads (t'.map Fnames.says) f.fid.toNat cs' := by rw [m2]; exact Fnames.leads_comps.mpr c1
        have habs := (abs_exact (t := t') (by
          intro n hn
          rw [m2] at hn
          obtain ⟨n', hn', rfl⟩ := List.mem_map.mp hn
          obtain ⟨n0, hn0, e, _⟩ := hback n' hn'
          show n'.parent.toNat < _
          rw [e, htl]; exact hpar n0 hn0) f.fid).1 cs' (by rw [htl]; exact hde.fid) hle
        refine ⟨(sep :: joinSlash cs', s.start, s.stop), fun s' hs' _ => ?_⟩
        rw [hs] at hs'; injection hs' with hs'; subst hs'
        refine ⟨?_, rfl, fun hk => ?_⟩
        · simp only [Index.docid2Doc, hlk, habs, bind, Except.bind, pure, Except.pure, hde.start, hde.stop]
        · show sep :: joinSlash cs' = s.path
          rw [c2 fun j css e1 e2 e3 i hi => by
            rw [hr2] at e3
            rw [List.getElem?_drop, ← hW, ← hWget]
            rw [Nat.zero_add] at hi
            exact hk _ (Fnames.parts_way hr1 e2 e3) _ ((hown' e1 e2 i).mpr hi)]
          rw [hr2, join_split, hr1]
      · refine ⟨([], 0, 0), fun s hs h1 => ?_⟩
        have := (List.getElem?_eq_some_iff.mp hs).1
        exact absurd ⟨h1, by omega⟩ hc
    obtain ⟨D, hD⟩ := Classical.axiomOfChoice key
    obtain ⟨a1, a2⟩ := answering hU hsrt hr hf (x' := { x with fnames := t' }) rfl D (fun id i1 i2 =>
      (hD id _ (List.getElem?_eq_getElem (show id.toNat - 1 < (documents h).length by omega)) i1).1)
    refine ⟨_, q, _, ho, a1, a2, fun i s hs => ?_⟩
    have hi := (List.getElem?_eq_some_iff.mp hs).1
    have e : (UInt32.ofNat (i + 1)).toNat = i + 1 := by rw [UInt32.toNat_ofNat']; omega
    obtain ⟨_, b2, b3⟩ := hD (UInt32.ofNat (i + 1)) s (by rw [e, Nat.add_sub_cancel]; exact hs) (by omega)
    refine ⟨congrArg Prod.fst b2, congrArg Prod.snd b2, rfl, fun hk => ?_⟩
    show Doc.ofMeta (D _) = _
    unfold Doc.ofMeta
    rw [b3 hk, b2]; rfl

end

/-! ## Non-vacuity -/

/-- the example opens and answers whichever byte of its second record's end changes -/
example : ∃ d : Dir, History asciiUni ⟨fun _ => [], fun _ => .ok exQConfig⟩ exQConfig exHistory d ∧ ∃ f, d .dmd = some f ∧ ∀ v,
    ∃ x q D, Index.open ⟨fun _ => [], fun _ => .ok exQConfig⟩ mergeSorter (d.set .dmd (f.set 23 v)) = .ok x ∧ x.startQuery = .ok q ∧
      Answering asciiUni exQConfig (documents exHistory) x q D := by
  obtain ⟨d, hd⟩ := History.exists (u := asciiUni) exUsable [47] _ _ exFits
  obtain ⟨t, fs, k1, k2, k3⟩ := (History.rep exUsable hd exFits).front
  refine ⟨d, hd, _, k2, fun v => ?_⟩
  obtain ⟨x, q, D, h1, h2, h3, _⟩ := C112_ends exUsable mergeSorter_isSorter hd exFits k2 (((Dmd.zeroFields :: fs).flatMap Dmd.encode).set 23 v) (by simp) (fun i hi => by
    rw [List.getElem?_set_ne (by omega)])
  exact ⟨x, q, D, h1, h2, h3⟩

end Dupi.Props
