import Mathlib.Data.List.Forall2
import Verif.Props.NextLim
import Verif.Proof.Again
/-! # C92: `Next` with slices of any capacities -/

namespace Dupi.Props
open Spec

/-- slices as made by `make([]Doc, 0, cap)`, or used before, or nil; the capacities may be anything, also 0, and differ -/
def Emptied (dst : List Blot) : Prop := ∀ b ∈ dst, b.docs = none ∨ ∃ s, b.docs = some ⟨[], s⟩

/-- What one call returns: at most as many blots as there is room for, `io.EOF` iff there are none; each blot with at least two of its documents, ones that
follow each other in the index, in their order, and not more than there is room for in its slice. -/
structure Bits (u : Uni) (c : Config) (docs : List Document) (dst : List Blot) (r : Query.NextResult) : Prop where
  len : r.dst.length = dst.length
  room : r.n ≤ dst.length
  eof : r.eof = true ↔ r.n = 0 ∧ dst ≠ []
  blot : ∀ (i : Nat) bl, i < r.n → r.dst[i]? = some bl → bl.blot.toNat < numBuckets c ∧ 2 ≤ bl.vis.length ∧
    bl.vis.map Doc.noDat <:+: (found u c docs bl.blot.toNat).map Document.shown ∧
    ∀ b s, dst[i]? = some b → b.docs = some ⟨[], s⟩ → bl.vis.length ≤ s.length

theorem count_delivered (r : Query.NextResult) (rs : List Query.NextResult) (h : r.n ≤ r.dst.length) :
    (delivered (r :: rs)).length = r.n + (delivered rs).length := by
  unfold delivered
  rw [List.flatMap_cons, List.length_append, List.length_take]
  omega

section
variable {u : Uni} {J : CfgCodec} {srt : Sorter} {c : Config} (hU : Usable J c) (hsrt : IsSorter srt)
include hU hsrt

theorem nextCalls_any {h : Sessions} (hf : Fits u c (documents h)) {x : Index} (hx : Holds srt x c.numShards.toNat (bucketIds u c (documents h)) (metaOf (documents h)))
    (grow : Nat → Nat) (ff fuel : Nat) (hff : 2 ^ 32 ≤ ff) : ∀ (dsts : List (List Blot)) (q : QState) (L : List Query.Place),
    Query.LInv x c.numShards.toNat (bucketIds u c (documents h)) q L → (∀ dst ∈ dsts, Emptied dst) → Query.wts L + 2 ^ 32 < fuel →
    ∃ rs, nextCalls grow x ff fuel q dsts = .ok rs ∧ List.Forall₂ (Bits u c (documents h)) dsts rs ∧ (delivered rs).length ≤ Query.wts L ∧
      (Query.Exh L → ∀ r ∈ rs, r.n = 0) ∧
      ∀ (i j : Nat) dst r r', i < j → dsts[i]? = some dst → rs[i]? = some r → rs[j]? = some r' → r.n < dst.length → r'.n = 0 := by
  intro dsts
  have hn := hU.shards
  have hn' := hU.shardsSmall
  induction dsts with
  | nil => intro q L _ _ _; exact ⟨[], rfl, .nil, Nat.zero_le _, by simp, by simp⟩
  | cons dst dsts ih =>
    intro q L hL hE hfuel
    have hgo := Query.toGo_le q
    obtain ⟨r, e1, e2⟩ := Query.nextLoop_any hsrt hx (by omega) grow hff
      (fun i => (dst[i]?.bind (·.docs)).map fun d => d.spare.length) fuel q L 0 dst hL (by
        intro i b _ hb
        rcases hE dst (by simp) b (List.mem_of_getElem? hb) with e | ⟨s, e⟩
        · exact .inl ⟨e, by simp [hb, e]⟩
        · exact .inr ⟨s, e, by simp [hb, e]⟩) (Nat.zero_le _) (by omega)
    obtain ⟨L', r1, r2, r3, r4⟩ := e2.rest
    obtain ⟨rs, k1, k2, k3, k4, k5⟩ := ih r.state L' r1 (fun d hd => hE d (by simp [hd])) (by omega)
    refine ⟨r :: rs, by simp only [nextCalls, Query.next, e1, bind, Except.bind, k1, pure, Except.pure], .cons ⟨e2.len, e2.hi, e2.eof, ?_⟩ k2, ?_, ?_, ?_⟩
    · intro i bl hi hbl
      obtain ⟨bl', b1, j, b, ids, g1, g2, g3, g4, g5, g6, g7⟩ := e2.new i (Nat.zero_le _) hi
      rw [hbl] at b1; injection b1 with b1; subst b1
      have hlen : bl.vis.length = ids.length := by simpa using congrArg List.length g7
      have h2 : 2 ≤ (bucketIds u c (documents h) j b).length := by have := g4.length_le; omega
      have hnum : bl.blot = blotNum c.numShards.toNat (j, b) := g3
      refine ⟨?_, by omega, ?_, ?_⟩
      · rw [hnum]
        have hs := bucket_small g1 g2 (by intro hc; rw [hc] at h2; simp at h2)
        simp only [blotNum, UInt32.toNat_ofNat', numBuckets]
        have := Nat.mul_le_mul_right c.numShards.toNat (show b ≤ 65535 by omega)
        omega
      · rw [g7, hnum, ← bucketIds_num (jb := (j, b)) hf.ids g1 g2 h2]
        exact g4.map _
      · intro b0 s hb0 hs
        have := g6 s.length (by simp [hb0, hs])
        omega
    · rw [count_delivered _ _ (by rw [e2.len]; exact e2.hi)]; omega
    · intro he r' hr'
      rcases List.mem_cons.mp hr' with rfl | hr'
      · exact e2.exh he
      · exact k4 (r4 he) r' hr'
    · intro i j d r' r'' hij h1 h2 h3 h4
      cases j with
      | zero => omega
      | succ j =>
        rw [List.getElem?_cons_succ] at h3
        cases i with
        | zero =>
          simp at h1 h2
          subst h1 h2
          exact k4 (r3 h4) _ (List.mem_of_getElem? h3)
        | succ i => exact k5 i j d r' r'' (by omega) (by simpa using h1) (by simpa using h2) h3 h4

/-- **C92**, the part that holds.  Whatever the capacities of the slices handed to `Next`, the calls on a fresh query all return; each returns, with every blot it
fills, at least two documents of this blot that follow each other in the index, and no more than there is room for; together they return no more than `K` blots;
and once a call has not filled all its blots no later one fills any.  (What is missing: that no document of a blot is returned twice, see `C92_false`.) -/
theorem C92_any_partial {h : Sessions} {x : Index} {q : QState} (hr : Reading u J srt c h x q) (hf : Fits u c (documents h)) :
    ∃ K : Nat, ∀ grow ff fuel dsts, (∀ dst ∈ dsts, Emptied dst) → 2 ^ 32 ≤ ff → K < fuel →
      ∃ rs, nextCalls grow x ff fuel q dsts = .ok rs ∧ List.Forall₂ (Bits u c (documents h)) dsts rs ∧ (delivered rs).length ≤ K ∧
        ∀ (i j : Nat) dst r r', i < j → dsts[i]? = some dst → rs[i]? = some r → rs[j]? = some r' → r.n < dst.length → r'.n = 0 := by
  obtain ⟨h1, _⟩ := hr.rep hU hsrt hf
  have hn := hU.shards
  have hn' := hU.shardsSmall
  obtain ⟨L, hL⟩ := Query.LInv.start hsrt h1 (by omega) hr.start (by omega)
  refine ⟨Query.wts L + 2 ^ 32, fun grow ff fuel dsts hE hff hfuel => ?_⟩
  obtain ⟨rs, k1, k2, k3, _, k5⟩ := nextCalls_any hU hsrt hf h1 grow ff fuel hff dsts q L hL hE hfuel
  exact ⟨rs, k1, k2, by omega, k5⟩

/-- **C92**: a loop that calls `Next` until `io.EOF` ends. -/
theorem C92_ends {h : Sessions} {x : Index} {q : QState} (hr : Reading u J srt c h x q) (hf : Fits u c (documents h)) :
    ∃ K : Nat, ∀ grow ff fuel dsts rs, (∀ dst ∈ dsts, Emptied dst ∧ dst ≠ []) → 2 ^ 32 ≤ ff → K < fuel → nextCalls grow x ff fuel q dsts = .ok rs → K < dsts.length →
      ∃ i r, i ≤ K ∧ rs[i]? = some r ∧ r.eof = true := by
  obtain ⟨K, hK⟩ := C92_any_partial hU hsrt hr hf
  refine ⟨K, fun grow ff fuel dsts rs hE hff hfuel hrs hlen => ?_⟩
  obtain ⟨rs', k1, k2, k3, k4⟩ := hK grow ff fuel dsts (fun d hd => (hE d hd).1) hff hfuel
  rw [hrs] at k1; injection k1 with k1; subst k1
  apply Classical.byContradiction
  intro hno
  have key : ∀ (dsts : List (List Blot)) (rs : List Query.NextResult), List.Forall₂ (Bits u c (documents h)) dsts rs → (∀ dst ∈ dsts, dst ≠ []) →
      ∀ m, m ≤ dsts.length → (∀ i r, i < m → rs[i]? = some r → r.eof = false) → m ≤ (delivered rs).length := by
    intro dsts rs hfa
    induction hfa with
    | nil => intro _ m hm _; exact hm
    | @cons d r _ _ hb _ ih =>
      intro hne m hm hno
      rw [count_delivered _ _ (by rw [hb.len]; exact hb.room)]
      cases m with
      | zero => omega
      | succ m =>
        have := ih (fun d hd => hne d (by simp [hd])) m (by simpa using hm) (fun i r hi hr => hno (i + 1) r (by omega) (by simpa using hr))
        have h0 := hno 0 r (by omega) rfl
        have : ¬ r.n = 0 := fun e => by
          have := hb.eof.mpr ⟨e, hne _ (by simp)⟩
          rw [h0] at this; cases this
        omega
  have := key dsts rs k2 (fun d hd => (hE d hd).2) (K + 1) hlen (by
    intro i r hi hr
    cases he : r.eof with
    | false => rfl
    | true => exact absurd ⟨i, r, by omega, hr, he⟩ hno)
  omega

/-- **C92** is false: with two shards, a blot can be delivered twice.  Suppose there are three blots with documents: two of the first shard, each with more
documents than the one of the second shard; and cut in pieces of `cap` documents, the last piece of each of the first two has at least two documents, while that of
the third has less.  Then all the documents of one of the first two are delivered, and at the end once more. -/
theorem C92_false {h : Sessions} {x : Index} {q : QState} (hr : Reading u J srt c h x q) (hf : Fits u c (documents h)) {cap : Nat} (hc : 2 ≤ cap) (hn : c.numShards = 2)
    {b b' a : UInt32} (hb : b.toNat % 2 = 0) (hb' : b'.toNat % 2 = 0) (ha : a.toNat % 2 = 1) (hbb : b ≠ b')
    (lb : b.toNat < numBuckets c) (lb' : b'.toNat < numBuckets c) (la : a.toNat < numBuckets c)
    (hall : ∀ d : UInt32, d.toNat < numBuckets c → found u c (documents h) d.toNat ≠ [] → d = b ∨ d = b' ∨ d = a)
    (hl : (found u c (documents h) a.toNat).length < (found u c (documents h) b.toNat).length)
    (hl' : (found u c (documents h) a.toNat).length < (found u c (documents h) b'.toNat).length) (h2 : 2 ≤ (found u c (documents h) a.toNat).length)
    (hm : 2 ≤ (found u c (documents h) b.toNat).length % cap) (hm' : 2 ≤ (found u c (documents h) b'.toNat).length % cap)
    (hma : (found u c (documents h) a.toNat).length % cap ≤ 1) :
    ∃ twice, (twice = b ∨ twice = b') ∧ ∃ K : Nat, ∀ grow ff fuel dsts, Capped cap dsts → 2 ^ 32 ≤ ff → K < fuel →
      ∃ rs, nextCalls grow x ff fuel q dsts = .ok rs ∧ ((∃ r ∈ rs, r.eof = true) →
        deliveredOf rs twice = (found u c (documents h) twice.toNat).map Document.shown ++ (found u c (documents h) twice.toNat).map Document.shown) := by
  obtain ⟨h1, _⟩ := hr.rep hU hsrt hf
  have en : c.numShards.toNat = 2 := by rw [hn]; rfl
  have hbk : numBuckets c = 131072 := by unfold numBuckets; rw [en]
  rw [hbk] at lb lb' la
  have hdoc : ∀ d : Nat, (bucketIds u c (documents h) (d % 2) (d / 2 % 65536)).map (fun id => Doc.ofMeta (metaOf (documents h) id)) =
      (found u c (documents h) d).map Document.shown := by
    intro d
    have := bucketIds_found u c (documents h) hf.ids d
    rw [en] at this
    exact this
  have hlen : ∀ d : Nat, (bucketIds u c (documents h) (d % 2) (d / 2 % 65536)).length = (found u c (documents h) d).length := by
    intro d
    simpa using congrArg List.length (hdoc d)
  have hat : ∀ (d : UInt32) (j : Nat), d.toNat < 131072 → d.toNat % 2 = j → (bucketIds u c (documents h) j (d.toNat / 2)).length = (found u c (documents h) d.toNat).length := by
    intro d j h1 h2
    rw [← hlen d.toNat, h2, Nat.mod_eq_of_lt (by omega : d.toNat / 2 < 65536)]
  have hnil : ∀ j k, j < 2 → k < 65536 → bucketIds u c (documents h) j k ≠ [] → UInt32.ofNat (2 * k + j) = b ∨ UInt32.ofNat (2 * k + j) = b' ∨ UInt32.ofNat (2 * k + j) = a := by
    intro j k hj hk hne
    have e : (UInt32.ofNat (2 * k + j)).toNat = 2 * k + j := by simp only [UInt32.toNat_ofNat']; omega
    refine hall _ (by rw [hbk, e]; omega) fun hf0 => hne ?_
    have := hlen (2 * k + j)
    rw [e] at hf0
    rw [hf0, show (2 * k + j) % 2 = j by omega, show (2 * k + j) / 2 % 65536 = k by omega] at this
    exact List.length_eq_zero_iff.mp this
  have hnum : ∀ j k (d : UInt32), j < 2 → k < 65536 → UInt32.ofNat (2 * k + j) = d → d.toNat = 2 * k + j := by
    intro j k d hj hk e
    rw [← e]; simp only [UInt32.toNat_ofNat']; omega
  rw [en] at h1
  have hbb' : b.toNat ≠ b'.toNat := fun e => hbb (UInt32.toNat_inj.mp e)
  obtain ⟨k, p, p', hor, hK⟩ := Query.delLim_again hsrt h1 hc hr.start (b := b.toNat / 2) (b' := b'.toNat / 2) (a := a.toNat / 2) (by omega) (by omega) (by omega) (by omega)
    (by rw [hat b 0 lb hb, hat a 1 la ha]; exact hl) (by rw [hat b' 0 lb' hb', hat a 1 la ha]; exact hl') (by rw [hat a 1 la ha]; exact h2)
    (by rw [hat b 0 lb hb]; exact hm) (by rw [hat b' 0 lb' hb']; exact hm') (by rw [hat a 1 la ha]; exact hma)
    (by
      intro k hk n1 n2
      apply Classical.byContradiction
      intro hne
      rcases hnil 0 k (by omega) hk hne with e | e | e
      · have := hnum 0 k _ (by omega) hk e; omega
      · have := hnum 0 k _ (by omega) hk e; omega
      · have := hnum 0 k _ (by omega) hk e; omega)
    (by
      intro k hk n1
      apply Classical.byContradiction
      intro hne
      rcases hnil 1 k (by omega) hk hne with e | e | e
      · have := hnum 1 k _ (by omega) hk e; omega
      · have := hnum 1 k _ (by omega) hk e; omega
      · have := hnum 1 k _ (by omega) hk e; omega)
  obtain ⟨t, ht, htp, htl, htm⟩ : ∃ t : UInt32, (t = b ∨ t = b') ∧ t.toNat = 2 * p' ∧ t.toNat < 131072 ∧ 2 ≤ (found u c (documents h) t.toNat).length % cap := by
    rcases hor with ⟨_, e⟩ | ⟨_, e⟩
    · exact ⟨b', .inr rfl, by omega, lb', hm'⟩
    · exact ⟨b, .inl rfl, by omega, lb, hm⟩
  have hpp : p ≠ p' := by omega
  have hplt : p < 65536 := by omega
  have hp'lt : p' < 65536 := by omega
  refine ⟨t, ht, k + c.numShards.toNat + 2 ^ 32, fun grow ff fuel dsts hcap hff hfuel => ?_⟩
  obtain ⟨rs, k1, k2⟩ := nextCalls_lim hU hsrt (by rw [en]; exact h1) hc grow ff fuel hff dsts q k _ (by rw [en]; exact hK) hcap hfuel
  refine ⟨rs, k1, fun he => ?_⟩
  obtain ⟨d1, d2⟩ := Slices.delivered _ _ _ k2
  rw [deliveredOf_eq, d1, d2 he, en]
  have hblot : ∀ j k, j < 2 → k < 65536 → ∀ ids, (shownPiece (documents h) 2 (j, k, ids)).1.toNat = 2 * k + j := by
    intro j k hj hk ids
    simp only [shownPiece, blotNum, UInt32.toNat_ofNat']; omega
  have hoth : ∀ j k, j < 2 → k < 65536 → 2 * k + j ≠ t.toNat → ∀ pcs : List (List UInt32),
      docsOf ((pcs.map fun ids => (j, k, ids)).map (shownPiece (documents h) 2)) t = [] := by
    intro j k hj hk hne pcs
    apply docsOf_nil_of
    intro e he0 heq
    obtain ⟨e', he', rfl⟩ := List.mem_map.mp he0
    obtain ⟨ids, _, rfl⟩ := List.mem_map.mp he'
    exact hne (by rw [← heq, hblot j k hj hk ids])
  have hself : ∀ pcs : List (List UInt32), docsOf ((pcs.map fun ids => (0, p', ids)).map (shownPiece (documents h) 2)) t =
      pcs.flatten.map fun id => Doc.ofMeta (metaOf (documents h) id) := by
    intro pcs
    have hteq : t = blotNum 2 (0, p') := by
      apply UInt32.toNat_inj.mp
      exact htp.trans (hblot 0 p' (by omega) hp'lt []).symm
    have := docsOf_group (blotNum 2) (fun _ : Nat × Nat => pcs.map fun ids => ids.map fun id => Doc.ofMeta (metaOf (documents h) id)) [(0, p')] (by simp) (0, p') (by simp)
    rw [← hteq, ← List.map_flatten] at this
    rw [← this, List.flatMap_cons, List.flatMap_nil, List.append_nil, List.map_map, List.map_map]
    rw [hteq]
    rfl
  have hwhole : (Query.pieces cap (bucketIds u c (documents h) 0 p')).flatten.map (fun id => Doc.ofMeta (metaOf (documents h) id)) =
      (found u c (documents h) t.toNat).map Document.shown := by
    rw [Query.pieces_flatten hc _ _ rfl]
    have hl0 : (bucketIds u c (documents h) 0 p').length = (found u c (documents h) t.toNat).length := by
      rw [← hat t 0 htl (by omega), show t.toNat / 2 = p' by omega]
    rw [if_neg (by rw [hl0]; omega), Nat.sub_zero, List.take_length, ← hdoc t.toNat, show t.toNat % 2 = 0 by omega, show t.toNat / 2 % 65536 = p' by omega]
  rw [List.map_append, List.map_append, List.map_append, List.map_append, docsOf_append, docsOf_append, docsOf_append, docsOf_append,
    hoth 0 p (by omega) hplt (by omega), hself, hoth 1 (a.toNat / 2) (by omega) (by omega) (by omega), hwhole]
  simp [docsOf]

end

/-! ## Non-vacuity -/

/-- three times the text "x b c e." and twice "x c e." -/
def exAgainHistory : Sessions := [([47], List.replicate 3 ⟨[112], 0, 8, some [120, 32, 98, 32, 99, 32, 101, 46]⟩ ++ List.replicate 2 ⟨[112], 0, 6, some [120, 32, 99, 32, 101, 46]⟩)]

theorem exAgainBlots : blotsOf asciiUni (exLimConfig 2) [120, 32, 98, 32, 99, 32, 101, 46] = [0x050c5d7d, 0x050c5d7c, 0x050c5d7a] ∧
    blotsOf asciiUni (exLimConfig 2) [120, 32, 99, 32, 101, 46] = [0x050c5d7c, 0x050c5d7a] := by
  constructor
  · show blots 1 1 _ = _
    decide +kernel
  · show blots 1 1 _ = _
    decide +kernel

/-- nothing else is found -/
theorem exAgainAll : ∀ d : UInt32, d.toNat < numBuckets (exLimConfig 2) → found asciiUni (exLimConfig 2) (documents exAgainHistory) d.toNat ≠ [] →
      d = 0x5d7c ∨ d = 0x5d7a ∨ d = 0x5d7d := by
  have hbk : numBuckets (exLimConfig 2) = 131072 := by decide
  intro d hd hne
  rw [hbk] at hd
  apply Classical.byContradiction
  intro hno
  apply hne
  have hno' : d.toNat ≠ 0x5d7c ∧ d.toNat ≠ 0x5d7a ∧ d.toNat ≠ 0x5d7d :=
    ⟨fun e => hno (.inl (UInt32.toNat_inj.mp e)), fun e => hno (.inr (.inl (UInt32.toNat_inj.mp e))), fun e => hno (.inr (.inr (UInt32.toNat_inj.mp e)))⟩
  have e : (exLimConfig 2).numShards.toNat * 65536 = 131072 := by decide
  have hA : hasBlot asciiUni (exLimConfig 2) [120, 32, 98, 32, 99, 32, 101, 46] d.toNat = false := by
    unfold hasBlot
    rw [exAgainBlots.1, e, List.any_eq_false]
    intro w hw
    simp only [decide_eq_true_eq]
    rw [Nat.mod_eq_of_lt hd]
    simp only [List.mem_cons, List.not_mem_nil, or_false] at hw
    rcases hw with rfl | rfl | rfl
    · exact fun e => hno'.2.2 e.symm
    · exact fun e => hno'.1 e.symm
    · exact fun e => hno'.2.1 e.symm
  have hB : hasBlot asciiUni (exLimConfig 2) [120, 32, 99, 32, 101, 46] d.toNat = false := by
    unfold hasBlot
    rw [exAgainBlots.2, e, List.any_eq_false]
    intro w hw
    simp only [decide_eq_true_eq]
    rw [Nat.mod_eq_of_lt hd]
    simp only [List.mem_cons, List.not_mem_nil, or_false] at hw
    rcases hw with rfl | rfl
    · exact fun e => hno'.1 e.symm
    · exact fun e => hno'.2.1 e.symm
  simp [found, documents, exAgainHistory, added, List.replicate, hA, hB]

/-- with two shards and slices of three: a loop of calls of `Next` for one blot each ends, and has by then delivered the five documents under `fnv32 "c"`, or those
under `fnv32 "e"`, twice -/
theorem C92_nonvacuous : ∃ x q, Reading asciiUni ⟨fun _ => [], fun _ => .ok (exLimConfig 2)⟩ mergeSorter (exLimConfig 2) exAgainHistory x q ∧
    ∃ twice : UInt32, (found asciiUni (exLimConfig 2) (documents exAgainHistory) twice.toNat).length = 5 ∧
      ∃ m ff fuel rs, nextCalls (fun _ => 0) x ff fuel q (List.replicate m [⟨0, some ⟨[], List.replicate 3 ⟨[], 0, 0, none⟩⟩⟩]) = .ok rs ∧ (∃ r ∈ rs, r.eof = true) ∧
        (deliveredOf rs twice).length = 10 := by
  have hf : Fits asciiUni (exLimConfig 2) (documents exAgainHistory) := ⟨by decide +kernel, by decide +kernel, by decide +kernel⟩
  have hU := exLimUsable 2 (by decide) (by decide)
  obtain ⟨d, hd⟩ := History.exists (u := asciiUni) hU [47] _ [] hf
  obtain ⟨x, q, _, h⟩ := reading_exists hU mergeSorter_isSorter hd hf
  have hall := exAgainAll
  obtain ⟨twice, ht, K, hK⟩ := C92_false hU mergeSorter_isSorter h hf (cap := 3) (by omega) rfl (b := 0x5d7c) (b' := 0x5d7a) (a := 0x5d7d) (by decide) (by decide) (by decide)
    (by decide) (by decide) (by decide) (by decide) hall (by decide +kernel) (by decide +kernel) (by decide +kernel) (by decide +kernel) (by decide +kernel) (by decide +kernel)
  obtain ⟨K', hK'⟩ := C92_ends hU mergeSorter_isSorter h hf
  have hlen : (found asciiUni (exLimConfig 2) (documents exAgainHistory) twice.toNat).length = 5 := by
    rcases ht with rfl | rfl
    · decide +kernel
    · decide +kernel
  refine ⟨x, q, h, twice, hlen, K' + 1, 2 ^ 32, K + K' + 1, ?_⟩
  have hcap : Capped 3 (List.replicate (K' + 1) [⟨0, some ⟨[], List.replicate 3 ⟨[], 0, 0, none⟩⟩⟩]) := by
    intro dst hdst b hb
    rw [List.eq_of_mem_replicate hdst] at hb
    simp only [List.mem_cons, List.not_mem_nil, or_false] at hb
    subst hb
    exact ⟨_, rfl, rfl⟩
  obtain ⟨rs, r1, r2⟩ := hK (fun _ => 0) (2 ^ 32) (K + K' + 1) _ hcap (Nat.le_refl _) (by omega)
  obtain ⟨i, r, _, hi, he⟩ := hK' (fun _ => 0) (2 ^ 32) (K + K' + 1) _ rs (by
      intro dst hdst
      rw [List.eq_of_mem_replicate hdst]
      refine ⟨?_, by simp⟩
      intro b hb
      simp only [List.mem_cons, List.not_mem_nil, or_false] at hb
      subst hb
      exact .inr ⟨_, rfl⟩) (Nat.le_refl _) (by omega) r1 (by simp)
  refine ⟨rs, r1, ⟨r, List.mem_of_getElem? hi, he⟩, ?_⟩
  rw [r2 ⟨r, List.mem_of_getElem? hi, he⟩]
  rw [List.length_append, List.length_map]
  exact congrArg₂ (· + ·) hlen hlen

end Dupi.Props
