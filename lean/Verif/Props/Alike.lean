import Verif.Props.Query
import Verif.Proof.Layout
import Verif.Props.MakeAny

/-! # C101 – C104: indexes that answer alike -/

namespace Dupi.Props
open Spec

/-- a blot with its documents, as a query delivers it -/
def seenDocs (b : Blot) : UInt32 × List Doc := (b.blot, b.vis)

/-! ## About `found` -/

theorem hasBlot_congr {u : Uni} {c c' : Config} (hb : c.blotConfig = c'.blotConfig) (hn : c.numShards = c'.numShards) (dat : Bytes) (b : Nat) :
    hasBlot u c dat b = hasBlot u c' dat b := by
  unfold hasBlot blotsOf; rw [hb, hn]

theorem found_congr {u : Uni} {c c' : Config} (hb : c.blotConfig = c'.blotConfig) (hn : c.numShards = c'.numShards) (docs : List Document) (b : Nat) :
    found u c docs b = found u c' docs b := by
  unfold found; exact List.filter_congr fun s _ => hasBlot_congr hb hn s.dat b

theorem numBuckets_mul {c c' : Config} {k : Nat} (hn : c'.numShards.toNat = k * c.numShards.toNat) : numBuckets c' = k * numBuckets c := by
  unfold numBuckets; rw [hn, Nat.mul_assoc]

theorem hasBlot_iff {u : Uni} {c : Config} {dat : Bytes} {b : Nat} :
    hasBlot u c dat b = true ↔ ∃ x ∈ blotsOf u c dat, x.toNat % numBuckets c = b % numBuckets c := by
  unfold hasBlot numBuckets
  rw [List.any_eq_true]
  simp

/-- with more shards fewer blots fall together -/
theorem hasBlot_finer {u : Uni} {c c' : Config} (hb : c.blotConfig = c'.blotConfig) {k : Nat} (hn : c'.numShards.toNat = k * c.numShards.toNat)
    {dat : Bytes} {b b' : Nat} (he : b' % numBuckets c = b % numBuckets c) (h : hasBlot u c' dat b' = true) : hasBlot u c dat b = true := by
  obtain ⟨x, h1, h2⟩ := hasBlot_iff.mp h
  refine hasBlot_iff.mpr ⟨x, by unfold blotsOf at h1 ⊢; rw [hb]; exact h1, ?_⟩
  rw [numBuckets_mul hn] at h2
  rw [← he]
  have := congrArg (· % numBuckets c) h2
  simpa [Nat.mod_mul_left_mod] using this

theorem found_finer {u : Uni} {c c' : Config} (hb : c.blotConfig = c'.blotConfig) {k : Nat} (hn : c'.numShards.toNat = k * c.numShards.toNat)
    {b b' : Nat} (he : b' % numBuckets c = b % numBuckets c) (docs : List Document) : (found u c' docs b').Sublist (found u c docs b) := by
  unfold found
  induction docs with
  | nil => exact .slnil
  | cons s docs ih =>
    rw [List.filter_cons, List.filter_cons]
    cases h : hasBlot u c' s.dat b' with
    | true => simp only [hasBlot_finer hb hn he h, if_true]; exact ih.cons_cons s
    | false =>
      cases hasBlot u c s.dat b with
      | true => simp only [if_true, Bool.false_eq_true, if_false]; exact ih.cons s
      | false => simpa using ih

/-! ## C101 -/

section
variable {u : Uni} {J J' : CfgCodec} {srt srt' : Sorter} {c c' : Config} (hU : Usable J c) (hU' : Usable J' c') (hsrt : IsSorter srt) (hsrt' : IsSorter srt')
  {h h' : Sessions} {x x' : Index} {q q' : QState} (hr : Reading u J srt c h x q) (hr' : Reading u J' srt' c' h' x' q')
  (hf : Fits u c (documents h)) (hf' : Fits u c' (documents h'))

include hU hU' hsrt hsrt' hr hr' hf hf'

/-- two indexes that are to find the same documents: `Get` -/
theorem get_alike {b : UInt32} {docs docs' : List Doc} (he : (found u c (documents h) b.toNat).map Document.shown = docs)
    (he' : (found u c' (documents h') b.toNat).map Document.shown = docs') (grow grow' : Nat → Nat) (fuel fuel' : Nat) (h1 : (documents h).length < fuel) (h2 : (documents h').length < fuel') :
    ∃ r r', Query.get grow x fuel q ⟨b, none⟩ = .ok r ∧ Query.get grow' x' fuel' q' ⟨b, none⟩ = .ok r' ∧ r.vis = docs ∧ r'.vis = docs' := by
  obtain ⟨r, k1, _, k3⟩ := C21_get hU hsrt hr hf grow b fuel h1 rfl
  obtain ⟨r', m1, _, m3⟩ := C21_get hU' hsrt' hr' hf' grow' b fuel' h2 rfl
  exact ⟨r, r', k1, m1, k3.trans he, m3.trans he'⟩

/-- **C101.**  Two indexes of the same documents in the same order, however they were divided into sessions, and with whatever numbers of shatterers
and documents between flushes: `Get` returns the same for every blot. -/
theorem C101_get (hb : c.blotConfig = c'.blotConfig) (hn : c.numShards = c'.numShards) (hd : documents h = documents h') (b : UInt32)
    (grow grow' : Nat → Nat) (fuel fuel' : Nat) (h1 : (documents h).length < fuel) (h2 : (documents h').length < fuel') :
    ∃ r r', Query.get grow x fuel q ⟨b, none⟩ = .ok r ∧ Query.get grow' x' fuel' q' ⟨b, none⟩ = .ok r' ∧ r.vis = r'.vis := by
  obtain ⟨r, r', g1, g2, g3, g4⟩ := get_alike hU hU' hsrt hsrt' hr hr' hf hf' (b := b) rfl
    (by rw [← hd, ← found_congr hb hn]) grow grow' fuel fuel' h1 h2
  exact ⟨r, r', g1, g2, g3.trans g4.symm⟩

/-- two indexes that are to find the same documents under the same blots: `Next` -/
theorem next_alike (hn : numBuckets c = numBuckets c') (hd : ∀ b, (found u c (documents h) b).map Document.shown = (found u c' (documents h') b).map Document.shown)
    {grow grow' ff ff' fuel fuel' dsts dsts' rs rs'} (hnil : ∀ dst ∈ dsts, ∀ b ∈ dst, b.docs = none) (hnil' : ∀ dst ∈ dsts', ∀ b ∈ dst, b.docs = none)
    (hff : 2 ^ 32 ≤ ff) (hff' : 2 ^ 32 ≤ ff') (hfuel : 2 ^ 32 + 2 ^ 32 + 2 ^ 32 < fuel) (hfuel' : 2 ^ 32 + 2 ^ 32 + 2 ^ 32 < fuel')
    (hrs : nextCalls grow x ff fuel q dsts = .ok rs) (he : ∃ r ∈ rs, r.eof = true)
    (hrs' : nextCalls grow' x' ff' fuel' q' dsts' = .ok rs') (he' : ∃ r ∈ rs', r.eof = true) :
    ((delivered rs).map seenDocs).Perm ((delivered rs').map seenDocs) := by
  obtain ⟨k1, k2, k3⟩ := C23_until_eof hU hsrt hr hf hnil hff hfuel hrs he
  obtain ⟨m1, m2, m3⟩ := C23_until_eof hU' hsrt' hr' hf' hnil' hff' hfuel' hrs' he'
  have hp : ((delivered rs).map Blot.blot).Perm ((delivered rs').map Blot.blot) := by
    refine (List.perm_ext_iff_of_nodup k1 m1).mpr fun b => ?_
    rw [k2, m2, hn]
    have := congrArg List.length (hd b.toNat)
    rw [List.length_map, List.length_map] at this
    rw [this]
  have e1 : (delivered rs).map seenDocs = ((delivered rs).map Blot.blot).map fun b => (b, (found u c (documents h) b.toNat).map Document.shown) := by
    rw [List.map_map]
    exact List.map_congr_left fun b hb => by rw [seenDocs, k3 b hb]; rfl
  have e2 : (delivered rs').map seenDocs = ((delivered rs').map Blot.blot).map fun b => (b, (found u c (documents h) b.toNat).map Document.shown) := by
    rw [List.map_map]
    exact List.map_congr_left fun b hb => by rw [seenDocs, m3 b hb, ← hd]; rfl
  rw [e1, e2]
  exact hp.map _

/-- **C101**, extraction: up to the order, the same blots with the same documents are delivered. -/
theorem C101_next (hb : c.blotConfig = c'.blotConfig) (hn : c.numShards = c'.numShards) (hd : documents h = documents h')
    {grow grow' ff ff' fuel fuel' dsts dsts' rs rs'} (hnil : ∀ dst ∈ dsts, ∀ b ∈ dst, b.docs = none) (hnil' : ∀ dst ∈ dsts', ∀ b ∈ dst, b.docs = none)
    (hff : 2 ^ 32 ≤ ff) (hff' : 2 ^ 32 ≤ ff') (hfuel : 2 ^ 32 + 2 ^ 32 + 2 ^ 32 < fuel) (hfuel' : 2 ^ 32 + 2 ^ 32 + 2 ^ 32 < fuel')
    (hrs : nextCalls grow x ff fuel q dsts = .ok rs) (he : ∃ r ∈ rs, r.eof = true)
    (hrs' : nextCalls grow' x' ff' fuel' q' dsts' = .ok rs') (he' : ∃ r ∈ rs', r.eof = true) :
    ((delivered rs).map seenDocs).Perm ((delivered rs').map seenDocs) :=
  next_alike hU hU' hsrt hsrt' hr hr' hf hf' (by unfold numBuckets; rw [hn]) (fun b => by rw [← hd, found_congr hb hn]) hnil hnil' hff hff' hfuel hfuel' hrs he hrs' he'

/-- **C101**, shards: with a multiple of the shards, `Get` returns some of the documents it returned with fewer, in the same order; and those which it
no longer returns it returns for another blot that with fewer shards was not told from this one. -/
theorem C101_shards_get (hb : c.blotConfig = c'.blotConfig) {k : Nat} (hn : c'.numShards.toNat = k * c.numShards.toNat) (hd : documents h = documents h')
    (grow grow' : Nat → Nat) (fuel fuel' : Nat) (h1 : (documents h).length < fuel) (h2 : (documents h').length < fuel') :
    (∀ b b' : UInt32, b'.toNat % numBuckets c = b.toNat % numBuckets c →
      ∃ r r', Query.get grow x fuel q ⟨b, none⟩ = .ok r ∧ Query.get grow' x' fuel' q' ⟨b', none⟩ = .ok r' ∧ r'.vis.Sublist r.vis) ∧
    ∀ (b : UInt32) (r : Blot), Query.get grow x fuel q ⟨b, none⟩ = .ok r → ∀ s ∈ r.vis, ∃ (b' : UInt32) (r' : Blot), b'.toNat % numBuckets c = b.toNat % numBuckets c ∧
      Query.get grow' x' fuel' q' ⟨b', none⟩ = .ok r' ∧ s ∈ r'.vis := by
  constructor
  · intro b b' he
    obtain ⟨r, k1, _, k3⟩ := C21_get hU hsrt hr hf grow b fuel h1 rfl
    obtain ⟨r', m1, _, m3⟩ := C21_get hU' hsrt' hr' hf' grow' b' fuel' h2 rfl
    refine ⟨r, r', k1, m1, ?_⟩
    rw [k3, m3, ← hd]
    exact (found_finer hb hn he _).map _
  · intro b r hg s hs
    obtain ⟨r0, k1, _, k3⟩ := C21_get hU hsrt hr hf grow b fuel h1 rfl
    rw [hg] at k1
    injection k1 with k1
    rw [k1, k3] at hs
    obtain ⟨t, t1, t2⟩ := List.mem_map.mp hs
    obtain ⟨t3, t4⟩ := List.mem_filter.mp t1
    obtain ⟨y, y1, y2⟩ := hasBlot_iff.mp t4
    obtain ⟨r', m1, _, m3⟩ := C21_get hU' hsrt' hr' hf' grow' y fuel' h2 rfl
    refine ⟨y, r', y2, m1, ?_⟩
    rw [m3, ← hd]
    exact List.mem_map.mpr ⟨t, List.mem_filter.mpr ⟨t3, hasBlot_iff.mpr ⟨y, by unfold blotsOf at y1 ⊢; rw [← hb]; exact y1, rfl⟩⟩, t2⟩

/-- **C101**, shards: documents delivered together with a multiple of the shards are delivered together with fewer. -/
theorem C101_shards_next (hb : c.blotConfig = c'.blotConfig) {k : Nat} (hn : c'.numShards.toNat = k * c.numShards.toNat) (hd : documents h = documents h')
    {grow grow' ff ff' fuel fuel' dsts dsts' rs rs'} (hnil : ∀ dst ∈ dsts, ∀ b ∈ dst, b.docs = none) (hnil' : ∀ dst ∈ dsts', ∀ b ∈ dst, b.docs = none)
    (hff : 2 ^ 32 ≤ ff) (hff' : 2 ^ 32 ≤ ff') (hfuel : 2 ^ 32 + 2 ^ 32 + 2 ^ 32 < fuel) (hfuel' : 2 ^ 32 + 2 ^ 32 + 2 ^ 32 < fuel')
    (hrs : nextCalls grow x ff fuel q dsts = .ok rs) (he : ∃ r ∈ rs, r.eof = true)
    (hrs' : nextCalls grow' x' ff' fuel' q' dsts' = .ok rs') (he' : ∃ r ∈ rs', r.eof = true) :
    ∀ b' ∈ delivered rs', ∃ b ∈ delivered rs, b.blot.toNat = b'.blot.toNat % numBuckets c ∧ b'.vis.Sublist b.vis := by
  obtain ⟨k1, k2, k3⟩ := C23_until_eof hU hsrt hr hf hnil hff hfuel hrs he
  obtain ⟨m1, m2, m3⟩ := C23_until_eof hU' hsrt' hr' hf' hnil' hff' hfuel' hrs' he'
  intro b' hb'
  obtain ⟨n1, n2⟩ := (m2 b'.blot).mp (List.mem_map_of_mem hb')
  have hpos : 0 < numBuckets c := by unfold numBuckets; have := hU.shards; omega
  have hlt : b'.blot.toNat % numBuckets c < 2 ^ 32 := Nat.lt_of_le_of_lt (Nat.mod_le _ _) b'.blot.toNat_lt
  have hbt : (UInt32.ofNat (b'.blot.toNat % numBuckets c)).toNat = b'.blot.toNat % numBuckets c := by
    simp only [UInt32.toNat_ofNat']; omega
  have hsub := found_finer (u := u) hb hn (b := (UInt32.ofNat (b'.blot.toNat % numBuckets c)).toNat) (b' := b'.blot.toNat) (by rw [hbt, Nat.mod_mod]) (documents h)
  rw [← hd] at n2
  obtain ⟨b, b1, b2⟩ := List.mem_map.mp ((k2 (UInt32.ofNat (b'.blot.toNat % numBuckets c))).mpr ⟨by rw [hbt]; exact Nat.mod_lt _ hpos, Nat.le_trans n2 hsub.length_le⟩)
  refine ⟨b, b1, by rw [b2, hbt], ?_⟩
  rw [k3 b b1, m3 b' hb', b2, ← hd]
  exact hsub.map _

/-! ## C103: the order of the documents -/

/-- **C103.**  Two indexes of the same documents in different orders: `Get` returns the same documents for every blot, in the orders in which they were added. -/
theorem C103_get (hb : c.blotConfig = c'.blotConfig) (hn : c.numShards = c'.numShards) (hd : (documents h).Perm (documents h')) (b : UInt32)
    (grow grow' : Nat → Nat) (fuel fuel' : Nat) (h1 : (documents h).length < fuel) (h2 : (documents h').length < fuel') :
    ∃ r r', Query.get grow x fuel q ⟨b, none⟩ = .ok r ∧ Query.get grow' x' fuel' q' ⟨b, none⟩ = .ok r' ∧ r.vis.Perm r'.vis := by
  obtain ⟨r, r', g1, g2, g3, g4⟩ := get_alike hU hU' hsrt hsrt' hr hr' hf hf' (b := b) rfl rfl grow grow' fuel fuel' h1 h2
  refine ⟨r, r', g1, g2, ?_⟩
  rw [g3, g4, ← found_congr hb hn]
  exact (hd.filter _).map _

/-- **C103**, extraction: the same blots are delivered, each with the same documents. -/
theorem C103_next (hb : c.blotConfig = c'.blotConfig) (hn : c.numShards = c'.numShards) (hd : (documents h).Perm (documents h'))
    {grow grow' ff ff' fuel fuel' dsts dsts' rs rs'} (hnil : ∀ dst ∈ dsts, ∀ b ∈ dst, b.docs = none) (hnil' : ∀ dst ∈ dsts', ∀ b ∈ dst, b.docs = none)
    (hff : 2 ^ 32 ≤ ff) (hff' : 2 ^ 32 ≤ ff') (hfuel : 2 ^ 32 + 2 ^ 32 + 2 ^ 32 < fuel) (hfuel' : 2 ^ 32 + 2 ^ 32 + 2 ^ 32 < fuel')
    (hrs : nextCalls grow x ff fuel q dsts = .ok rs) (he : ∃ r ∈ rs, r.eof = true)
    (hrs' : nextCalls grow' x' ff' fuel' q' dsts' = .ok rs') (he' : ∃ r ∈ rs', r.eof = true) :
    ((delivered rs).map Blot.blot).Perm ((delivered rs').map Blot.blot) ∧
      ∀ b ∈ delivered rs, ∀ b' ∈ delivered rs', b.blot = b'.blot → b.vis.Perm b'.vis := by
  obtain ⟨k1, k2, k3⟩ := C23_until_eof hU hsrt hr hf hnil hff hfuel hrs he
  obtain ⟨m1, m2, m3⟩ := C23_until_eof hU' hsrt' hr' hf' hnil' hff' hfuel' hrs' he'
  have hp : ∀ b, (found u c (documents h) b).Perm (found u c' (documents h') b) := by
    intro b; rw [← found_congr hb hn]; exact hd.filter _
  constructor
  · refine (List.perm_ext_iff_of_nodup k1 m1).mpr fun b => ?_
    rw [k2, m2, (hp _).length_eq]
    unfold numBuckets
    rw [hn]
  · intro b hb1 b' hb2 hbb
    rw [k3 b hb1, m3 b' hb2, hbb]
    exact (hp _).map _

/-! ## C104: layout -/

omit hU hU' hsrt hsrt' hr hr' hf hf' in
theorem hasBlot_layout {dat dat' : Bytes} (hs : SameWords u dat dat') (b : Nat) : hasBlot u c dat b = hasBlot u c dat' b := by
  unfold hasBlot blotsOf; rw [hs.hashes]

omit hU hU' hsrt hsrt' hr hr' hf hf' in
theorem found_layout (b : Nat) : ∀ {l l' : List Document}, Alike (fun s s' : Document => s.shown = s'.shown ∧ SameWords u s.dat s'.dat) l l' →
    (found u c l b).map Document.shown = (found u c l' b).map Document.shown := by
  intro l l' h
  induction h with
  | nil => rfl
  | cons h _ ih =>
    unfold found at ih ⊢
    rw [List.filter_cons, List.filter_cons, hasBlot_layout h.2]
    split
    · rw [List.map_cons, List.map_cons, h.1, ih]
    · exact ih

/-- **C104.**  Two indexes whose documents have the same paths, starts and ends, and texts with the same words; what is between the words, and upper and
lower case, may be different.  Every text ends with a character that belongs to no word.  `Get` returns the same for every blot. -/
theorem C104_get_partial (hb : c.blotConfig = c'.blotConfig) (hn : c.numShards = c'.numShards)
    (hd : Alike (fun s s' : Document => s.shown = s'.shown ∧ SameWords u s.dat s'.dat) (documents h) (documents h')) (b : UInt32)
    (grow grow' : Nat → Nat) (fuel fuel' : Nat) (h1 : (documents h).length < fuel) (h2 : (documents h').length < fuel') :
    ∃ r r', Query.get grow x fuel q ⟨b, none⟩ = .ok r ∧ Query.get grow' x' fuel' q' ⟨b, none⟩ = .ok r' ∧ r.vis = r'.vis := by
  obtain ⟨r, r', g1, g2, g3, g4⟩ := get_alike hU hU' hsrt hsrt' hr hr' hf hf' (b := b) rfl rfl grow grow' fuel fuel' h1 h2
  refine ⟨r, r', g1, g2, ?_⟩
  rw [g3, g4, ← found_congr hb hn]
  exact found_layout _ hd

/-- **C104**, extraction. -/
theorem C104_next_partial (hb : c.blotConfig = c'.blotConfig) (hn : c.numShards = c'.numShards)
    (hd : Alike (fun s s' : Document => s.shown = s'.shown ∧ SameWords u s.dat s'.dat) (documents h) (documents h'))
    {grow grow' ff ff' fuel fuel' dsts dsts' rs rs'} (hnil : ∀ dst ∈ dsts, ∀ b ∈ dst, b.docs = none) (hnil' : ∀ dst ∈ dsts', ∀ b ∈ dst, b.docs = none)
    (hff : 2 ^ 32 ≤ ff) (hff' : 2 ^ 32 ≤ ff') (hfuel : 2 ^ 32 + 2 ^ 32 + 2 ^ 32 < fuel) (hfuel' : 2 ^ 32 + 2 ^ 32 + 2 ^ 32 < fuel')
    (hrs : nextCalls grow x ff fuel q dsts = .ok rs) (he : ∃ r ∈ rs, r.eof = true)
    (hrs' : nextCalls grow' x' ff' fuel' q' dsts' = .ok rs') (he' : ∃ r ∈ rs', r.eof = true) :
    ((delivered rs).map seenDocs).Perm ((delivered rs').map seenDocs) :=
  next_alike hU hU' hsrt hsrt' hr hr' hf hf' (by unfold numBuckets; rw [hn]) (fun b => by rw [← found_congr hb hn]; exact found_layout _ hd)
    hnil hnil' hff hff' hfuel hfuel' hrs he hrs' he'

end

/-- **C104**, texts that end with a word: the word counts without its last character, and not at all if it has only one. -/
theorem C104_cut {u : Uni} {s0 : List Char} {ps : List (List Char × List Char)} (h : Laid u s0 ps) {w : List Char} {ch : Char}
    (hw : ∀ a ∈ w ++ [ch], isWordChar u a = true) :
    wordChars u (utf8 (laidOut s0 ps ++ (w ++ [ch]))) = ps.map Prod.fst ++ (if w = [] then [] else [w]) ∧
    ∀ s, isWordChar u s = false → wordChars u (utf8 (laidOut s0 ps ++ (w ++ [ch]) ++ [s])) = ps.map Prod.fst ++ [w ++ [ch]] := by
  refine ⟨h.ends (fun a ha => hw a (by simp [ha])) ch, fun s hs => ?_⟩
  have hl : Laid u s0 (ps ++ [(w ++ [ch], [s])]) := by
    refine ⟨h.start, fun p hp => ?_, fun p hp => ?_⟩
    · rcases List.mem_append.mp hp with hp | hp
      · exact h.word p hp
      · rw [List.mem_singleton] at hp; subst hp; exact ⟨by simp, hw⟩
    · rcases List.mem_append.mp hp with hp | hp
      · exact h.after p hp
      · rw [List.mem_singleton] at hp; subst hp; exact ⟨by simp, fun a ha => by rw [List.mem_singleton] at ha; rw [ha]; exact hs⟩
  have := hl.words
  rw [show laidOut s0 (ps ++ [(w ++ [ch], [s])]) = laidOut s0 ps ++ (w ++ [ch]) ++ [s] by simp [laidOut]] at this
  rw [this]; simp

theorem aaText_laid (n : Nat) : aaText n = laidOut [] (List.replicate n (['a'], [' '])) := by
  induction n with
  | zero => rfl
  | succ n ih => rw [aaText, ih]; simp [laidOut, List.replicate_succ]

theorem laid_aa (u : Uni) (n : Nat) : Laid u [] (List.replicate n (['a'], [' '])) := by
  refine ⟨by simp, fun p hp => ?_, fun p hp => ?_⟩
  · rw [(List.mem_replicate.mp hp).2]; simp [isWordChar_a]
  · rw [(List.mem_replicate.mp hp).2]; simp [isWordChar_space]

theorem isWordChar_newline (u : Uni) : isWordChar u '\n' = false := by
  show (u.isLetter 10 || u.isDigit 10) = false
  rw [u.letter 10 (by decide), u.digit 10 (by decide)]; rfl

/-- **C104** is false: whatever the configuration, there is a text which as a document is found under some blot if a newline comes at its end, and under no
blot otherwise. -/
theorem C104_false {u : Uni} {J : CfgCodec} {srt : Sorter} {c : Config} (hU : Usable J c) (hsrt : IsSorter srt) : ∃ t : Bytes, ∀ (cwd p : Bytes) (st en : UInt32)
    {x x' : Index} {q q' : QState}, Reading u J srt c [(cwd, [⟨p, st, en, some t⟩])] x q → Reading u J srt c [(cwd, [⟨p, st, en, some (t ++ [10])⟩])] x' q' →
    Fits u c (documents [(cwd, [⟨p, st, en, some t⟩])]) → Fits u c (documents [(cwd, [⟨p, st, en, some (t ++ [10])⟩])]) → ∀ (grow : Nat → Nat) (fuel : Nat), 1 < fuel →
      (∀ b : UInt32, ∃ r, Query.get grow x fuel q ⟨b, none⟩ = .ok r ∧ r.vis = []) ∧
      ∃ (b : UInt32) (r : Blot), Query.get grow x' fuel q' ⟨b, none⟩ = .ok r ∧ r.vis = [⟨placeName (place cwd p), st, en, none⟩] := by
  generalize hm : c.blotConfig.seqLen.toNat * c.blotConfig.interleave.toNat = m
  obtain ⟨e1, e2⟩ := C104_cut (laid_aa u m) (w := []) (ch := 'a') (by simp [isWordChar_a])
  have e2 := e2 '\n' (isWordChar_newline u)
  refine ⟨utf8 (laidOut [] (List.replicate m (['a'], [' '])) ++ ([] ++ ['a'])), fun cwd p st en x x' q q' hr hr' hf hf' grow fuel hfuel => ⟨fun b => ?_, ?_⟩⟩
  · obtain ⟨r, k1, _, k3⟩ := C21_get hU hsrt hr hf grow b fuel (by simpa [documents, added] using hfuel) rfl
    refine ⟨r, k1, ?_⟩
    rw [k3]
    have : blotsOf u c (utf8 (laidOut [] (List.replicate m (['a'], [' '])) ++ ([] ++ ['a']))) = [] := by
      rw [blotsOf, e1]
      simp [blots, hm]
    have hb : hasBlot u c (utf8 (laidOut [] (List.replicate m (['a'], [' '])) ++ ([] ++ ['a']))) b.toNat = false := by rw [hasBlot, this]; rfl
    simp only [documents, added, found, List.flatMap_cons, List.flatMap_nil, List.map_cons, List.map_nil, List.append_nil, Option.getD_some, List.filter_cons, hb]
    rfl
  · have hl : ∃ y, blotsOf u c (utf8 (laidOut [] (List.replicate m (['a'], [' '])) ++ ([] ++ ['a'])) ++ [10]) = [y] := by
      have : utf8 (laidOut [] (List.replicate m (['a'], [' '])) ++ ([] ++ ['a'])) ++ [10] = utf8 (laidOut [] (List.replicate m (['a'], [' '])) ++ ([] ++ ['a']) ++ ['\n']) := by
        simp only [utf8, List.flatMap_append]; rfl
      rw [this, blotsOf, e2]
      refine List.length_eq_one_iff.mp ?_
      simp [blots, hm]
    obtain ⟨y, hy⟩ := hl
    obtain ⟨r, k1, _, k3⟩ := C21_get hU hsrt hr' hf' grow y fuel (by simpa [documents, added] using hfuel) rfl
    refine ⟨y, r, k1, ?_⟩
    rw [k3]
    have hb : hasBlot u c (utf8 (laidOut [] (List.replicate m (['a'], [' '])) ++ ([] ++ ['a'])) ++ [10]) y.toNat = true := by rw [hasBlot, hy]; simp
    simp only [documents, added, found, List.flatMap_cons, List.flatMap_nil, List.map_cons, List.map_nil, List.append_nil, Option.getD_some, List.filter_cons, hb]
    rfl

/-! ## C102: further documents -/

section
variable {u : Uni} {J : CfgCodec} {srt : Sorter} {c : Config} (hU : Usable J c) (hsrt : IsSorter srt)
  {h more : Sessions} {x x' : Index} {q q' : QState} (hr : Reading u J srt c h x q) (hr' : Reading u J srt c (h ++ more) x' q')
  (hf : Fits u c (documents (h ++ more)))

include hU hsrt hr hr' hf

omit hU hsrt hr hr' hf in
theorem documents_append (a b : Sessions) : documents (a ++ b) = documents a ++ documents b := by simp [documents]

omit hU hsrt hr hr' hf in
theorem found_append (docs docs' : List Document) (b : Nat) : found u c (docs ++ docs') b = found u c docs b ++ found u c docs' b := by simp [found]

/-- **C102.**  After further sessions `Get` returns for every blot what it returned before, and then those of the new documents that have the blot. -/
theorem C102_get (b : UInt32) (grow grow' : Nat → Nat) (fuel fuel' : Nat) (h1 : (documents h).length < fuel) (h2 : (documents (h ++ more)).length < fuel') :
    ∃ r r', Query.get grow x fuel q ⟨b, none⟩ = .ok r ∧ Query.get grow' x' fuel' q' ⟨b, none⟩ = .ok r' ∧
      r'.vis = r.vis ++ (found u c (documents more) b.toNat).map Document.shown := by
  have hf0 : Fits u c (documents h) := by rw [documents_append] at hf; exact hf.left
  obtain ⟨r, k1, _, k3⟩ := C21_get hU hsrt hr hf0 grow b fuel h1 rfl
  obtain ⟨r', m1, _, m3⟩ := C21_get hU hsrt hr' hf grow' b fuel' h2 rfl
  exact ⟨r, r', k1, m1, by rw [m3, k3, documents_append, found_append, List.map_append]⟩

/-- **C102**, extraction: every blot delivered before is delivered again, with its documents and then the new ones; and every other blot that is
delivered has a new document. -/
theorem C102_next {grow grow' ff ff' fuel fuel' dsts dsts' rs rs'} (hnil : ∀ dst ∈ dsts, ∀ b ∈ dst, b.docs = none) (hnil' : ∀ dst ∈ dsts', ∀ b ∈ dst, b.docs = none)
    (hff : 2 ^ 32 ≤ ff) (hff' : 2 ^ 32 ≤ ff') (hfuel : 2 ^ 32 + 2 ^ 32 + 2 ^ 32 < fuel) (hfuel' : 2 ^ 32 + 2 ^ 32 + 2 ^ 32 < fuel')
    (hrs : nextCalls grow x ff fuel q dsts = .ok rs) (he : ∃ r ∈ rs, r.eof = true)
    (hrs' : nextCalls grow' x' ff' fuel' q' dsts' = .ok rs') (he' : ∃ r ∈ rs', r.eof = true) :
    (∀ b ∈ delivered rs, ∃ b' ∈ delivered rs', b'.blot = b.blot ∧ b'.vis = b.vis ++ (found u c (documents more) b.blot.toNat).map Document.shown) ∧
    ∀ b' ∈ delivered rs', (∃ b ∈ delivered rs, b.blot = b'.blot) ∨ found u c (documents more) b'.blot.toNat ≠ [] := by
  have hf0 : Fits u c (documents h) := by rw [documents_append] at hf; exact hf.left
  obtain ⟨k1, k2, k3⟩ := C23_until_eof hU hsrt hr hf0 hnil hff hfuel hrs he
  obtain ⟨m1, m2, m3⟩ := C23_until_eof hU hsrt hr' hf hnil' hff' hfuel' hrs' he'
  constructor
  · intro b hb
    obtain ⟨n1, n2⟩ := (k2 b.blot).mp (List.mem_map_of_mem hb)
    obtain ⟨b', b1, b2⟩ := List.mem_map.mp ((m2 b.blot).mpr ⟨n1, by rw [documents_append, found_append, List.length_append]; omega⟩)
    exact ⟨b', b1, b2, by rw [m3 b' b1, k3 b hb, b2, documents_append, found_append, List.map_append]⟩
  · intro b' hb'
    obtain ⟨n1, n2⟩ := (m2 b'.blot).mp (List.mem_map_of_mem hb')
    by_cases hz : found u c (documents more) b'.blot.toNat = []
    · left
      rw [documents_append, found_append, hz, List.append_nil] at n2
      obtain ⟨b, b1, b2⟩ := List.mem_map.mp ((k2 b'.blot).mpr ⟨n1, n2⟩)
      exact ⟨b, b1, b2⟩
    · exact .inr hz

end
/-! ## The hypotheses can be met -/

/-- a codec for one configuration -/
def oneCodec (c : Config) : CfgCodec := ⟨fun _ => [], fun _ => .ok c⟩

def exSlowConfig : Config := { exQConfig with numShatters := 3, docFlushRate := 1 }
def exWideConfig : Config := { exQConfig with numShards := 2 * exQConfig.numShards }

/-- "a b c." and "A\nb, C!!" -/
def exPlain : Bytes := [97, 32, 98, 32, 99, 46]
def exFancy : Bytes := [65, 10, 98, 44, 32, 67, 33, 33]

theorem exFancy_same : SameWords asciiUni exPlain exFancy := by
  refine ⟨⟨[], [(['a'], [' ']), (['b'], [' ']), (['c'], ['.'])], [], [(['A'], ['\n']), (['b'], [',', ' ']), (['C'], ['!', '!'])], ?_, ?_, ?_, ?_, ?_⟩⟩
  · exact ⟨by simp, by decide +kernel, by decide +kernel⟩
  · exact ⟨by simp, by decide +kernel, by decide +kernel⟩
  · decide +kernel
  · decide +kernel
  · decide +kernel

/-- one index with two documents; one that was made in two sessions with another number of shatterers and another flush rate; one with the documents in the
other order; one with twice the shards; one with the second text laid out differently; and one with the first document only -/
theorem C101_nonvacuous : ∃ x1 q1 x2 q2 x3 q3 x4 q4 x5 q5 x6 q6,
    Reading asciiUni (oneCodec exQConfig) mergeSorter exQConfig [([47], [⟨[112], 0, 6, some exPlain⟩, ⟨[113], 1, 7, some exPlain⟩])] x1 q1 ∧
    Reading asciiUni (oneCodec exSlowConfig) mergeSorter exSlowConfig [([47], [⟨[112], 0, 6, some exPlain⟩]), ([47], [⟨[113], 1, 7, some exPlain⟩])] x2 q2 ∧
    Reading asciiUni (oneCodec exQConfig) mergeSorter exQConfig [([47], [⟨[113], 1, 7, some exPlain⟩, ⟨[112], 0, 6, some exPlain⟩])] x3 q3 ∧
    Reading asciiUni (oneCodec exWideConfig) mergeSorter exWideConfig [([47], [⟨[112], 0, 6, some exPlain⟩, ⟨[113], 1, 7, some exPlain⟩])] x4 q4 ∧
    Reading asciiUni (oneCodec exQConfig) mergeSorter exQConfig [([47], [⟨[112], 0, 6, some exFancy⟩, ⟨[113], 1, 7, some exPlain⟩])] x5 q5 ∧
    Reading asciiUni (oneCodec exQConfig) mergeSorter exQConfig [([47], [⟨[112], 0, 6, some exPlain⟩])] x6 q6 ∧
    ∃ b, (found asciiUni exQConfig (documents [([47], [⟨[112], 0, 6, some exPlain⟩, ⟨[113], 1, 7, some exPlain⟩])]) b).length = 2 := by
  have u2 : Usable (oneCodec exSlowConfig) exSlowConfig := ⟨⟨by decide, by decide, by decide, rfl⟩, by decide, by decide, by decide, by decide, by decide, rfl⟩
  have u4 : Usable (oneCodec exWideConfig) exWideConfig := ⟨⟨by decide, by decide, by decide, rfl⟩, by decide, by decide, by decide, by decide, by decide, rfl⟩
  have u1 : Usable (oneCodec exQConfig) exQConfig := ⟨⟨by decide, by decide, by decide, rfl⟩, by decide, by decide, by decide, by decide, by decide, rfl⟩
  have mk : ∀ {c : Config} (hU : Usable (oneCodec c) c) (cwd : Bytes) (docs : List Doc) (h : Sessions), Fits asciiUni c (documents ((cwd, docs) :: h)) →
      ∃ x q, Reading asciiUni (oneCodec c) mergeSorter c ((cwd, docs) :: h) x q := by
    intro c hU cwd docs h hf
    obtain ⟨d, hd⟩ := History.exists hU cwd docs h hf
    obtain ⟨x, q, _, hr⟩ := reading_exists hU mergeSorter_isSorter hd hf
    exact ⟨x, q, hr⟩
  obtain ⟨x1, q1, h1⟩ := mk u1 [47] [⟨[112], 0, 6, some exPlain⟩, ⟨[113], 1, 7, some exPlain⟩] [] ⟨by decide, by decide +kernel, by decide +kernel⟩
  obtain ⟨x2, q2, h2⟩ := mk u2 [47] [⟨[112], 0, 6, some exPlain⟩] [([47], [⟨[113], 1, 7, some exPlain⟩])] ⟨by decide, by decide +kernel, by decide +kernel⟩
  obtain ⟨x3, q3, h3⟩ := mk u1 [47] [⟨[113], 1, 7, some exPlain⟩, ⟨[112], 0, 6, some exPlain⟩] [] ⟨by decide, by decide +kernel, by decide +kernel⟩
  obtain ⟨x4, q4, h4⟩ := mk u4 [47] [⟨[112], 0, 6, some exPlain⟩, ⟨[113], 1, 7, some exPlain⟩] [] ⟨by decide, by decide +kernel, by decide +kernel⟩
  obtain ⟨x5, q5, h5⟩ := mk u1 [47] [⟨[112], 0, 6, some exFancy⟩, ⟨[113], 1, 7, some exPlain⟩] [] ⟨by decide, by decide +kernel, by decide +kernel⟩
  obtain ⟨x6, q6, h6⟩ := mk u1 [47] [⟨[112], 0, 6, some exPlain⟩] [] ⟨by decide, by decide +kernel, by decide +kernel⟩
  obtain ⟨y, hy⟩ : ∃ y, blotsOf asciiUni exQConfig exPlain = [y] := List.length_eq_one_iff.mp (by decide +kernel)
  have hb : hasBlot asciiUni exQConfig exPlain y.toNat = true := by rw [hasBlot, hy]; simp
  refine ⟨x1, q1, x2, q2, x3, q3, x4, q4, x5, q5, x6, q6, h1, h2, h3, h4, h5, h6, y.toNat, ?_⟩
  simp [documents, added, found, hb]

/-- the documents of these indexes are as the theorems want them -/
example : documents [([47], [⟨[112], 0, 6, some exPlain⟩]), ([47], [⟨[113], 1, 7, some exPlain⟩])] = documents [([47], [⟨[112], 0, 6, some exPlain⟩, ⟨[113], 1, 7, some exPlain⟩])] ∧
    exSlowConfig.blotConfig = exQConfig.blotConfig ∧ exWideConfig.numShards.toNat = 2 * exQConfig.numShards.toNat ∧
    Alike (fun s s' : Document => s.shown = s'.shown ∧ SameWords asciiUni s.dat s'.dat) (documents [([47], [⟨[112], 0, 6, some exPlain⟩])])
      (documents [([47], [⟨[112], 0, 6, some exFancy⟩])]) :=
  ⟨rfl, rfl, rfl, .cons ⟨rfl, exFancy_same⟩ .nil⟩

end Dupi.Props
