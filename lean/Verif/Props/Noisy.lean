import Verif.Props.Query
/-! # C87: replaced words, and interleaving -/

namespace Dupi.Props
open Spec

/-- of a run of `n * k + 1` words, the words which count: the ones at `k`, `2 * k`, …, `n * k` -/
def everyKth {α : Type} (n k : Nat) (w : List α) : List α := (List.range n).filterMap fun i => w[(i + 1) * k]?

theorem range_flip (n : Nat) : (List.range n).map (fun t => n - 1 - t) = (List.range n).reverse := by
  apply List.ext_getElem
  · simp
  · intro i h1 h2; simp

theorem everyKth_map {α β : Type} (f : α → β) (n k : Nat) (w : List α) : everyKth n k (w.map f) = (everyKth n k w).map f := by
  unfold everyKth
  rw [List.map_filterMap]
  exact filterMap_ext _ _ _ fun i _ => by rw [List.getElem?_map]

theorem windowXor_every (n k : Nat) (w : List UInt32) (hw : w.length = n * k + 1) :
    windowXor n k w.reverse = xorAll (everyKth n k w) := by
  unfold windowXor everyKth
  have e : (List.range n).filterMap (fun t => w.reverse[t * k]?) =
      ((List.range n).map fun t => n - 1 - t).filterMap fun i => w[(i + 1) * k]? := by
    rw [List.filterMap_map]
    refine filterMap_ext _ _ _ fun t ht => ?_
    have ht := List.mem_range.mp ht
    have hle := Nat.mul_le_mul_right k (Nat.le_of_lt ht)
    rw [List.getElem?_reverse (by omega), Function.comp_apply]
    have : (n - 1 - t + 1) * k = n * k - t * k := by
      rw [show n - 1 - t + 1 = n - t by omega, Nat.sub_mul]
    rw [this, hw]
    congr 1
  rw [e, range_flip]
  exact xorAll_perm ((List.reverse_perm _).filterMap _)

section
variable {u : Uni} {J : CfgCodec} {srt : Sorter} {c : Config} (hU : Usable J c) (hsrt : IsSorter srt)

include hU

/-- two documents which have a blot in common have a bucket in common -/
theorem bucket_of_blot {docs A B D : List Document} {s t : Document} (hd : docs = A ++ s :: B ++ t :: D) {b : UInt32}
    (b1 : b ∈ blotsOf u c s.dat) (b2 : b ∈ blotsOf u c t.dat) :
    ∃ m : UInt32, m.toNat < numBuckets c ∧ [s, t].Sublist (found u c docs m.toNat) := by
  have hn := hU.shards
  have hN : 0 < numBuckets c := by unfold numBuckets; omega
  let m : UInt32 := UInt32.ofNat (b.toNat % numBuckets c)
  have hm : m.toNat = b.toNat % numBuckets c := by
    have := Nat.mod_le b.toNat (numBuckets c)
    have := b.toNat_lt
    simp only [m, UInt32.toNat_ofNat']
    exact Nat.mod_eq_of_lt (by omega)
  have hb : ∀ d, b ∈ blotsOf u c d → hasBlot u c d m.toNat = true := by
    intro d hd
    simp only [hasBlot, List.any_eq_true, decide_eq_true_eq]
    refine ⟨b, hd, ?_⟩
    rw [hm]; simp [numBuckets]
  refine ⟨m, by rw [hm]; exact Nat.mod_lt _ hN, ?_⟩
  have : [s, t].Sublist docs := by
    rw [hd]
    have e1 : [s].Sublist (A ++ s :: B) := by simp
    have e2 : [t].Sublist (t :: D) := by simp
    exact e1.append e2
  have := this.filter (fun s => hasBlot u c s.dat m.toNat)
  unfold found; simpa [List.filter_cons, hb _ b1, hb _ b2] using this

/-- the blot of a run of words is the one of every `k`th of them -/
theorem blot_every {dat : Bytes} {p w r : List (List Char)} (h : wordChars u dat = p ++ w ++ r) (hl : w.length = c.seqLen.toNat + 1) :
    xorAll ((everyKth c.blotConfig.seqLen.toNat c.blotConfig.interleave.toNat w).map (hashOf u)) ∈ blotsOf u c dat := by
  have hcons := hU.cons
  have hk : c.blotConfig.seqLen.toNat * c.blotConfig.interleave.toNat + 1 = c.seqLen.toNat + 1 := by
    rw [hcons.prod, Int.toNat_mul (by have := hcons.inter; omega) (by have := hcons.seq; omega), Nat.mul_comm]
  unfold blotsOf
  rw [h, List.map_append, List.map_append, ← everyKth_map, ← windowXor_every _ _ _ (by simp; omega)]
  exact blots_window _ _ _ _ _ (by simp; omega)

include hsrt

/-- an unlimited extraction run to its end reports together two documents which have a blot in common -/
theorem reported_together {h : Sessions} {x : Index} {q : QState} (hr : Reading u J srt c h x q) (hf : Fits u c (documents h)) {grow ff fuel dsts rs}
    (hnil : ∀ dst ∈ dsts, ∀ b ∈ dst, b.docs = none) (hff : 2 ^ 32 ≤ ff) (hfuel : 2 ^ 32 + 2 ^ 32 + 2 ^ 32 < fuel)
    (hrs : nextCalls grow x ff fuel q dsts = .ok rs) (he : ∃ r ∈ rs, r.eof = true)
    {A B D : List Document} {s t : Document} (hd : documents h = A ++ s :: B ++ t :: D) {b : UInt32}
    (b1 : b ∈ blotsOf u c s.dat) (b2 : b ∈ blotsOf u c t.dat) :
    ∃ b ∈ delivered rs, [s.shown, t.shown].Sublist b.vis := by
  obtain ⟨m, hm, hsub⟩ := bucket_of_blot hU hd b1 b2
  obtain ⟨k1, k2, k3⟩ := C23_until_eof hU hsrt hr hf hnil hff hfuel hrs he
  have hin := (k2 m).mpr ⟨hm, hsub.length_le⟩
  obtain ⟨bl, hbl, hblm⟩ := List.mem_map.mp hin
  refine ⟨bl, hbl, ?_⟩
  rw [k3 bl hbl, hblm]
  exact hsub.map Document.shown

/-- **C87.**  If two documents have runs of `SeqLen + 1` words of which every `k`th words (`k` the interleaving) are the same ones, up to
case and in whatever order, an unlimited extraction run to its end reports a blot whose documents include both.  The other words of the
runs are any words. -/
theorem C87_every {h : Sessions} {x : Index} {q : QState} (hr : Reading u J srt c h x q) (hf : Fits u c (documents h)) {grow ff fuel dsts rs}
    (hnil : ∀ dst ∈ dsts, ∀ b ∈ dst, b.docs = none) (hff : 2 ^ 32 ≤ ff) (hfuel : 2 ^ 32 + 2 ^ 32 + 2 ^ 32 < fuel)
    (hrs : nextCalls grow x ff fuel q dsts = .ok rs) (he : ∃ r ∈ rs, r.eof = true)
    {A B D : List Document} {s t : Document} (hd : documents h = A ++ s :: B ++ t :: D)
    {p1 w1 r1 p2 w2 r2 : List (List Char)} (h1 : wordChars u s.dat = p1 ++ w1 ++ r1) (h2 : wordChars u t.dat = p2 ++ w2 ++ r2)
    (l1 : w1.length = c.seqLen.toNat + 1) (l2 : w2.length = c.seqLen.toNat + 1)
    (hw : ((everyKth c.blotConfig.seqLen.toNat c.blotConfig.interleave.toNat w1).map (List.map (lowerChar u))).Perm
      ((everyKth c.blotConfig.seqLen.toNat c.blotConfig.interleave.toNat w2).map (List.map (lowerChar u)))) :
    ∃ b ∈ delivered rs, [s.shown, t.shown].Sublist b.vis := by
  refine reported_together hU hsrt hr hf hnil hff hfuel hrs he hd (blot_every hU h1 l1) ?_
  have e : xorAll ((everyKth c.blotConfig.seqLen.toNat c.blotConfig.interleave.toNat w1).map (hashOf u)) =
      xorAll ((everyKth c.blotConfig.seqLen.toNat c.blotConfig.interleave.toNat w2).map (hashOf u)) := by
    have := hw.map fun w : List Char => UInt32.ofNat (fnv1 ((utf8 w).map UInt8.toNat))
    rw [List.map_map, List.map_map] at this
    exact xorAll_perm this
  rw [e]
  exact blot_every hU h2 l2

omit hU hsrt in
/-- fewer than `k` numbers leave out a remainder -/
theorem free_class (k : Nat) (l : List Nat) (h : l.length < k) : ∃ o < k, ∀ e ∈ l, e % k ≠ o := by
  apply Classical.byContradiction
  intro hn
  have hall : ∀ o, o < k → o ∈ l.map (· % k) := by
    intro o ho
    apply Classical.byContradiction
    intro h'
    exact hn ⟨o, ho, fun e he h2 => h' (List.mem_map.mpr ⟨e, he, h2⟩)⟩
  have := (List.nodup_range (n := k)).length_le_of_subset (l₂ := l.map (· % k)) fun o ho => hall o (List.mem_range.mp ho)
  simp at this; omega

omit hU hsrt in
theorem everyKth_same {n k o : Nat} (ho : o < k) {w1 w2 : List (List Char)} (hsame : ∀ e < (n + 1) * k, e % k = o → w1[e]? = w2[e]?) :
    everyKth n k ((w1.drop o).take (n * k + 1)) = everyKth n k ((w2.drop o).take (n * k + 1)) := by
  unfold everyKth
  refine filterMap_ext _ _ _ fun i hi => ?_
  have hi := List.mem_range.mp hi
  have hle : (i + 1) * k ≤ n * k := Nat.mul_le_mul_right k hi
  have e : (n + 1) * k = n * k + k := by rw [Nat.add_mul, Nat.one_mul]
  rw [List.getElem?_take_of_lt (by omega), List.getElem?_take_of_lt (by omega), List.getElem?_drop, List.getElem?_drop]
  refine hsame _ (by omega) ?_
  rw [Nat.add_mul_mod_self_right, Nat.mod_eq_of_lt ho]

/-- the positions at which two runs of words differ, up to case -/
def replaced (u : Uni) (w1 w2 : List (List Char)) : List Nat :=
  (List.range w1.length).filter fun i => (w1[i]?).map (List.map (lowerChar u)) ≠ (w2[i]?).map (List.map (lowerChar u))

/-- **C87.**  If two documents have runs of `SeqLen + k` words (`k` the interleaving) which differ, up to case, at fewer than `k`
places, an unlimited extraction run to its end reports a blot whose documents include both. -/
theorem C87_replaced {h : Sessions} {x : Index} {q : QState} (hr : Reading u J srt c h x q) (hf : Fits u c (documents h)) {grow ff fuel dsts rs}
    (hnil : ∀ dst ∈ dsts, ∀ b ∈ dst, b.docs = none) (hff : 2 ^ 32 ≤ ff) (hfuel : 2 ^ 32 + 2 ^ 32 + 2 ^ 32 < fuel)
    (hrs : nextCalls grow x ff fuel q dsts = .ok rs) (he : ∃ r ∈ rs, r.eof = true)
    {A B D : List Document} {s t : Document} (hd : documents h = A ++ s :: B ++ t :: D)
    {p1 w1 r1 p2 w2 r2 : List (List Char)} (h1 : wordChars u s.dat = p1 ++ w1 ++ r1) (h2 : wordChars u t.dat = p2 ++ w2 ++ r2)
    (l1 : w1.length = c.seqLen.toNat + c.blotConfig.interleave.toNat) (l2 : w2.length = c.seqLen.toNat + c.blotConfig.interleave.toNat)
    (hw : (replaced u w1 w2).length < c.blotConfig.interleave.toNat) :
    ∃ b ∈ delivered rs, [s.shown, t.shown].Sublist b.vis := by
  have hcons := hU.cons
  have hk : c.seqLen.toNat = c.blotConfig.seqLen.toNat * c.blotConfig.interleave.toNat := by
    rw [hcons.prod, Int.toNat_mul (by have := hcons.inter; omega) (by have := hcons.seq; omega), Nat.mul_comm]
  obtain ⟨o, ho, hfree⟩ := free_class _ _ hw
  have hn : c.blotConfig.seqLen.toNat * c.blotConfig.interleave.toNat + c.blotConfig.interleave.toNat =
    (c.blotConfig.seqLen.toNat + 1) * c.blotConfig.interleave.toNat := by rw [Nat.add_mul, Nat.one_mul]
  have hsame := everyKth_same (n := c.blotConfig.seqLen.toNat) (k := c.blotConfig.interleave.toNat) (o := o)
    (w1 := w1.map (List.map (lowerChar u))) (w2 := w2.map (List.map (lowerChar u))) ho (by
      intro e he1 he2
      apply Classical.byContradiction
      intro hne
      rw [List.getElem?_map, List.getElem?_map] at hne
      exact hfree e (List.mem_filter.mpr ⟨List.mem_range.mpr (by omega), by simpa using hne⟩) he2)
  have hsplit : ∀ w : List (List Char), w = w.take o ++ (w.drop o).take (c.blotConfig.seqLen.toNat * c.blotConfig.interleave.toNat + 1) ++
      (w.drop o).drop (c.blotConfig.seqLen.toNat * c.blotConfig.interleave.toNat + 1) := by
    intro w; rw [List.append_assoc, List.take_append_drop, List.take_append_drop]
  rw [hsplit w1] at h1
  rw [hsplit w2] at h2
  refine C87_every hU hsrt hr hf hnil hff hfuel hrs he hd (p1 := p1 ++ w1.take o) (p2 := p2 ++ w2.take o)
    (r1 := _ ++ r1) (r2 := _ ++ r2) (by simpa only [List.append_assoc] using h1) (by simpa only [List.append_assoc] using h2)
    (by rw [List.length_take, List.length_drop]; omega) (by rw [List.length_take, List.length_drop]; omega) ?_
  rw [← everyKth_map, ← everyKth_map, List.map_take, List.map_take, List.map_drop, List.map_drop, hsame]

/-- a query can be read to its end -/
theorem reaches_eof {h : Sessions} {x : Index} {q : QState} (hr : Reading u J srt c h x q) (hf : Fits u c (documents h)) (grow : Nat → Nat)
    {ff fuel : Nat} (hff : 2 ^ 32 ≤ ff) (hfuel : 2 ^ 32 + 2 ^ 32 + 2 ^ 32 < fuel) :
    ∃ dsts rs, (∀ dst ∈ dsts, ∀ b ∈ dst, b.docs = none) ∧ nextCalls grow x ff fuel q dsts = .ok rs ∧ ∃ r ∈ rs, r.eof = true := by
  obtain ⟨E, e1, e2, e3, e4⟩ := C23_enumerates hU hsrt hr hf
  have hl := nodup32_length E e1
  have hn' := hU.shardsSmall
  have hnil : ∀ dst ∈ [List.replicate E.length (⟨0, none⟩ : Blot), [⟨0, none⟩]], ∀ b ∈ dst, b.docs = none := by
    intro dst hd b hb
    rcases List.mem_cons.mp hd with rfl | hd
    · rw [(List.mem_replicate.mp hb).2]
    · rw [List.mem_singleton] at hd; subst hd
      rw [List.mem_singleton] at hb; subst hb; rfl
  obtain ⟨rs, k1, k2⟩ := e4 grow ff fuel _ hnil hff (by omega)
  refine ⟨_, rs, hnil, k1, ?_⟩
  match rs, k2 with
  | [r1, r2], ⟨_, _, _, _, _, h2, _⟩ => exact ⟨r2, by simp, h2.mpr ⟨by simp, by simp⟩⟩

/-- two documents none of whose blots are in one bucket are not reported together -/
theorem not_together {h : Sessions} {x : Index} {q : QState} (hr : Reading u J srt c h x q) (hf : Fits u c (documents h)) {grow ff fuel dsts rs}
    (hnil : ∀ dst ∈ dsts, ∀ b ∈ dst, b.docs = none) (hff : 2 ^ 32 ≤ ff) (hfuel : 2 ^ 32 + 2 ^ 32 + 2 ^ 32 < fuel)
    (hrs : nextCalls grow x ff fuel q dsts = .ok rs) (he : ∃ r ∈ rs, r.eof = true)
    {s t : Document} (hd : documents h = [s, t]) (hp : s.path ≠ t.path)
    (hb : ∀ b1 ∈ blotsOf u c s.dat, ∀ b2 ∈ blotsOf u c t.dat, b1.toNat % numBuckets c ≠ b2.toNat % numBuckets c) :
    ∀ b ∈ delivered rs, ¬ (s.shown ∈ b.vis ∧ t.shown ∈ b.vis) := by
  intro b hbm
  obtain ⟨k1, k2, k3⟩ := C23_until_eof hU hsrt hr hf hnil hff hfuel hrs he
  rw [k3 b hbm]
  have hmem : ∀ d : Document, d = s ∨ d = t → d.shown ∈ (found u c (documents h) b.blot.toNat).map Document.shown →
      hasBlot u c d.dat b.blot.toNat = true := by
    intro d hdd hin
    obtain ⟨d', hd', e⟩ := List.mem_map.mp hin
    obtain ⟨m1, m2⟩ := List.mem_filter.mp hd'
    rw [hd] at m1
    have e' : d'.path = d.path := by simpa [Document.shown] using congrArg Doc.path e
    rcases List.mem_cons.mp m1 with rfl | m1
    · rcases hdd with rfl | rfl
      · exact m2
      · exact absurd e' hp
    · rcases List.mem_cons.mp m1 with rfl | m1
      · rcases hdd with rfl | rfl
        · exact absurd e'.symm hp
        · exact m2
      · cases m1
  rintro ⟨a1, a2⟩
  have a1 := hmem s (.inl rfl) a1
  have a2 := hmem t (.inr rfl) a2
  simp only [hasBlot, List.any_eq_true, decide_eq_true_eq] at a1 a2
  obtain ⟨b1, c1, c2⟩ := a1
  obtain ⟨b2, d1, d2⟩ := a2
  exact hb b1 c1 b2 d1 (c2.trans d2.symm)

end

/-! ## Non-vacuity, and what does not hold -/

/-- an example: two words at steps of two -/
def exNConfig : Config := ⟨[47, 105], 4, 3, 2, 5, ⟨wordsSimple⟩, ⟨2, 2⟩⟩

theorem exNUsable : Usable ⟨fun _ => [], fun _ => .ok exNConfig⟩ exNConfig :=
  ⟨⟨by decide, by decide, by decide, rfl⟩, by decide, by decide, by decide, by decide, by decide, rfl⟩

/-- two documents -/
def exNHistory (a b : Bytes) : Sessions := [([47], [⟨[112], 0, 20, some a⟩, ⟨[113], 0, 20, some b⟩])]

theorem exNReading {a b : Bytes} (hf : Fits asciiUni exNConfig (documents (exNHistory a b))) :
    ∃ x q, Reading asciiUni ⟨fun _ => [], fun _ => .ok exNConfig⟩ mergeSorter exNConfig (exNHistory a b) x q := by
  obtain ⟨d, hd⟩ := History.exists (u := asciiUni) exNUsable [47] _ _ hf
  obtain ⟨x, q, _, h⟩ := reading_exists exNUsable mergeSorter_isSorter hd hf
  exact ⟨x, q, h⟩

/-- there are an index of the texts and calls that read it to its end; whichever calls those are, they do not deliver the two documents
together -/
def NotFound (a b : Bytes) : Prop :=
  ∃ x q, Reading asciiUni ⟨fun _ => [], fun _ => .ok exNConfig⟩ mergeSorter exNConfig (exNHistory a b) x q ∧
    (∃ dsts rs, (∀ dst ∈ dsts, ∀ b ∈ dst, b.docs = none) ∧ nextCalls (fun n => n) x (2 ^ 32) (2 ^ 40) q dsts = .ok rs ∧ ∃ r ∈ rs, r.eof = true) ∧
    ∀ dsts rs, (∀ dst ∈ dsts, ∀ b ∈ dst, b.docs = none) → nextCalls (fun n => n) x (2 ^ 32) (2 ^ 40) q dsts = .ok rs → (∃ r ∈ rs, r.eof = true) →
      ∀ bl ∈ delivered rs, ¬ (⟨[47, 112], 0, 20, none⟩ ∈ bl.vis ∧ ⟨[47, 113], 0, 20, none⟩ ∈ bl.vis)

theorem notFound_of {a b : Bytes} (hf : Fits asciiUni exNConfig (documents (exNHistory a b)))
    (hb : ∀ b1 ∈ blotsOf asciiUni exNConfig a, ∀ b2 ∈ blotsOf asciiUni exNConfig b, b1.toNat % numBuckets exNConfig ≠ b2.toNat % numBuckets exNConfig) :
    NotFound a b := by
  obtain ⟨x, q, hr⟩ := exNReading hf
  refine ⟨x, q, hr, reaches_eof exNUsable mergeSorter_isSorter hr hf _ (by decide) (by decide), fun dsts rs h1 h2 h3 => ?_⟩
  exact not_together exNUsable mergeSorter_isSorter hr hf h1 (by decide) (by decide) h2 h3
    (s := ⟨[47, 112], 0, 20, a⟩) (t := ⟨[47, 113], 0, 20, b⟩) rfl (by simp) hb

/-- **C87** is sharp: with as many replaced words as the interleaving, the documents may not be found.  "a b c d e f." and "a b x y e f."
differ at two places, and the interleaving is two. -/
theorem C87_sharp : (wordChars asciiUni [97, 32, 98, 32, 99, 32, 100, 32, 101, 32, 102, 46]).length = 6 ∧
    (replaced asciiUni (wordChars asciiUni [97, 32, 98, 32, 99, 32, 100, 32, 101, 32, 102, 46])
      (wordChars asciiUni [97, 32, 98, 32, 120, 32, 121, 32, 101, 32, 102, 46])) = [2, 3] ∧
    NotFound [97, 32, 98, 32, 99, 32, 100, 32, 101, 32, 102, 46] [97, 32, 98, 32, 120, 32, 121, 32, 101, 32, 102, 46] :=
  ⟨by decide +kernel, by decide +kernel, notFound_of ⟨by decide, by decide +kernel, by decide +kernel⟩ (by decide +kernel)⟩

/-- **C87** is about replaced words only.  In "a b isn't c d." and "a b isnt c d." the apostrophe makes one word more, what comes after it
is at other places, and the documents are not found: interleaving does not help with "different treatment of "doesn't", due to the
apostrophe" (docs/design.md:142-147). -/
theorem C87_inserted : wordChars asciiUni [97, 32, 98, 32, 105, 115, 110, 39, 116, 32, 99, 32, 100, 46] =
      [['a'], ['b'], ['i', 's', 'n'], ['t'], ['c'], ['d']] ∧
    wordChars asciiUni [97, 32, 98, 32, 105, 115, 110, 116, 32, 99, 32, 100, 46] = [['a'], ['b'], ['i', 's', 'n', 't'], ['c'], ['d']] ∧
    NotFound [97, 32, 98, 32, 105, 115, 110, 39, 116, 32, 99, 32, 100, 46] [97, 32, 98, 32, 105, 115, 110, 116, 32, 99, 32, 100, 46] :=
  ⟨by decide +kernel, by decide +kernel, notFound_of ⟨by decide, by decide +kernel, by decide +kernel⟩ (by decide +kernel)⟩

/-- C87_replaced is about something: "a b c d e f." and "a b X d e f." differ at one place -/
theorem C87_nonvacuous : ∃ x q, Reading asciiUni ⟨fun _ => [], fun _ => .ok exNConfig⟩ mergeSorter exNConfig
      (exNHistory [97, 32, 98, 32, 99, 32, 100, 32, 101, 32, 102, 46] [97, 32, 98, 32, 88, 32, 68, 32, 101, 32, 102, 46]) x q ∧
    ∃ dsts rs, nextCalls (fun n => n) x (2 ^ 32) (2 ^ 40) q dsts = .ok rs ∧
      ∃ b ∈ delivered rs, [⟨[47, 112], 0, 20, none⟩, ⟨[47, 113], 0, 20, none⟩].Sublist b.vis := by
  have hf : Fits asciiUni exNConfig (documents
      (exNHistory [97, 32, 98, 32, 99, 32, 100, 32, 101, 32, 102, 46] [97, 32, 98, 32, 88, 32, 68, 32, 101, 32, 102, 46])) :=
    ⟨by decide, by decide +kernel, by decide +kernel⟩
  obtain ⟨x, q, hr⟩ := exNReading hf
  obtain ⟨dsts, rs, h1, h2, h3⟩ := reaches_eof exNUsable mergeSorter_isSorter hr hf (fun n => n) (ff := 2 ^ 32) (fuel := 2 ^ 40) (by decide) (by decide)
  refine ⟨x, q, hr, dsts, rs, h2, ?_⟩
  exact C87_replaced exNUsable mergeSorter_isSorter hr hf h1 (by decide) (by decide) h2 h3 (A := []) (B := []) (D := [])
    (s := ⟨[47, 112], 0, 20, [97, 32, 98, 32, 99, 32, 100, 32, 101, 32, 102, 46]⟩) (t := ⟨[47, 113], 0, 20, [97, 32, 98, 32, 88, 32, 68, 32, 101, 32, 102, 46]⟩)
    rfl (p1 := []) (r1 := []) (p2 := []) (r2 := []) (w1 := [['a'], ['b'], ['c'], ['d'], ['e'], ['f']])
    (w2 := [['a'], ['b'], ['X'], ['D'], ['e'], ['f']]) (by decide +kernel) (by decide +kernel) (by decide) (by decide) (by decide +kernel)

end Dupi.Props
