import Verif.Proof.ReadFaultsQuery

/-! How many calls on the files the reading of postings makes. -/

namespace Dupi

/-- the docids of the block in memory not yet delivered -/
def Posts.pend (p : Posts) : Nat := p.docids.length - p.i

theorem readAt_one_length {f : Bytes} {o : Int} {b : Bytes} (h : readAt f o 1 = .ok b) : b.length = 1 := by
  unfold readAt at h
  by_cases h1 : o < 0
  · rw [if_pos h1] at h; cases h
  · rw [if_neg h1, if_neg (by decide)] at h
    by_cases h2 : o.toNat + 1 ≤ f.length
    · rw [if_pos h2] at h; injection h with h; subst h; simp; omega
    · rw [if_neg h2] at h; cases h

theorem readVarintAtLoopF_cost (f : Bytes) (p : Int) (fuel : Nat) : ∀ (k : Nat) (acc bs : Bytes), readVarintAtLoop f p fuel acc = .ok bs →
    acc.length ≤ bs.length ∧ ∀ φ : ReadFates, (∀ j, k ≤ j → j < k + (bs.length - acc.length) → φ j = none) →
      readVarintAtLoopF φ f p fuel k acc = (k + (bs.length - acc.length), .ok bs) := by
  induction fuel with
  | zero => intro k acc bs h; cases h
  | succ fuel ih =>
    intro k acc bs h
    rw [readVarintAtLoop] at h
    cases hr : readAt f (p + acc.length) 1 with
    | error e => rw [hr] at h; cases h
    | ok b =>
      have hl := readAt_one_length hr
      rw [hr] at h
      simp only [bind, Except.bind, pure, Except.pure] at h
      by_cases hb : b.all (· < 0x80)
      · rw [if_pos hb] at h
        injection h with h; subst h
        refine ⟨by simp, fun φ hφ => ?_⟩
        have e : (acc ++ b).length - acc.length = 1 := by rw [List.length_append, hl]; omega
        rw [e] at hφ ⊢
        rw [readVarintAtLoopF]
        simp only [readAtF, hφ k (Nat.le_refl _) (by omega), hr, hb, if_true]
      · rw [if_neg hb] at h
        obtain ⟨g1, g2⟩ := ih (k + 1) (acc ++ b) bs h
        rw [List.length_append, hl] at g1 g2
        have e : k + 1 + (bs.length - (acc.length + 1)) = k + (bs.length - acc.length) := by omega
        rw [e] at g2
        refine ⟨by omega, fun φ hφ => ?_⟩
        rw [readVarintAtLoopF]
        simp only [readAtF, hφ k (Nat.le_refl _) (by omega), hr, hb]
        exact g2 φ (fun j h3 h4 => hφ j (by omega) h4)

/-- a varint read in `n` bytes is read in `n` calls, and a block in one more -/
theorem readNextF_cost {p p' : Posts} {f : Bytes} {v : Int} {n : Nat} (hv : readVarintAt f p.nextpos = .ok (v, n)) (hp : p.readNext f = .ok p') (k : Nat)
    (φ : ReadFates) (hφ : ∀ j, k ≤ j → j < k + (n + 1) → φ j = none) : p.readNextF φ k f = (k + (n + 1), .ok p') := by
  cases hl : readVarintAtLoop f p.nextpos maxVarintLen64 [] with
  | error e => rw [readVarintAt, hl] at hv; cases hv
  | ok bs =>
    have hn : n = bs.length := by
      rw [readVarintAt, hl] at hv
      simp only [bind, Except.bind] at hv
      by_cases hm : (varint bs).2 ≤ 0
      · rw [if_pos hm] at hv; cases hv
      · rw [if_neg hm] at hv; injection hv with hv; exact (congrArg Prod.snd hv).symm
    obtain ⟨_, g⟩ := readVarintAtLoopF_cost f p.nextpos maxVarintLen64 k [] bs hl
    simp only [List.length_nil, Nat.sub_zero] at g
    have e : readVarintAtF φ k f p.nextpos = (k + n, .ok (v, n)) := by
      rw [hn] at hφ ⊢
      unfold readVarintAtF
      rw [g φ (fun j a b => hφ j a (by omega))]
      rw [readVarintAt, hl] at hv
      simp only [bind, Except.bind] at hv
      rw [← hn]
      refine Prod.ext rfl ?_
      exact hv
    unfold Posts.readNextF
    unfold Posts.readNext at hp
    rw [e]
    rw [hv] at hp
    simp only [Posts.wrapErr, bind, Except.bind] at hp ⊢
    by_cases hc : v < 0 ∨ (Posts.bufLen : Int) < v
    · rw [if_pos hc] at hp; cases hp
    · rw [if_neg hc] at hp ⊢
      simp only [readAtF, hφ (k + n) (by omega) (by omega)]
      cases hr : readAt f (p.nextpos + n) v.toNat with
      | error e0 => rw [hr] at hp; cases e0 <;> cases hp
      | ok buf =>
        rw [hr] at hp
        simp only [] at hp ⊢
        exact Prod.ext rfl hp

/-- the first of the calls of reading a varint that fails -/
theorem readVarintAtLoopF_fail (f : Bytes) (p : Int) (fuel : Nat) : ∀ (k : Nat) (acc bs : Bytes), readVarintAtLoop f p fuel acc = .ok bs →
    ∀ (φ : ReadFates) (K : Nat) (e : Err), k ≤ K → K < k + (bs.length - acc.length) → (∀ j, j < K → φ j = none) → φ K = some e →
      ∃ k', readVarintAtLoopF φ f p fuel k acc = (k', .error (.err e)) := by
  induction fuel with
  | zero => intro k acc bs h; cases h
  | succ fuel ih =>
    intro k acc bs h φ K e h1 h2 h3 h4
    rw [readVarintAtLoop] at h
    rw [readVarintAtLoopF]
    by_cases hk : k = K
    · subst hk
      exact ⟨k + 1, by simp only [readAtF, h4, fail]⟩
    · cases hr : readAt f (p + acc.length) 1 with
      | error e => rw [hr] at h; cases h
      | ok b =>
        have hl := readAt_one_length hr
        rw [hr] at h
        simp only [bind, Except.bind, pure, Except.pure] at h
        by_cases hb : b.all (· < 0x80)
        · rw [if_pos hb] at h
          injection h with h; subst h
          rw [List.length_append, hl] at h2
          omega
        · rw [if_neg hb] at h
          obtain ⟨k', g⟩ := ih (k + 1) (acc ++ b) bs h φ K e (by omega) (by rw [List.length_append, hl]; omega) h3 h4
          refine ⟨k', ?_⟩
          simp only [readAtF, h3 k (by omega), hr, hb]
          exact g

theorem readNextF_fail {p : Posts} {f : Bytes} {v : Int} {n : Nat} (hv : readVarintAt f p.nextpos = .ok (v, n)) {p' : Posts} (hp : p.readNext f = .ok p') (k : Nat)
    (φ : ReadFates) (K : Nat) (e : Err) (h1 : k ≤ K) (h2 : K < k + (n + 1)) (h3 : ∀ j, j < K → φ j = none) (h4 : φ K = some e) :
    ∃ k' m, p.readNextF φ k f = (k', .error (.err (.wrap m e))) := by
  cases hl : readVarintAtLoop f p.nextpos maxVarintLen64 [] with
  | error e => rw [readVarintAt, hl] at hv; cases hv
  | ok bs =>
    have hn : n = bs.length := by
      rw [readVarintAt, hl] at hv
      simp only [bind, Except.bind] at hv
      by_cases hm : (varint bs).2 ≤ 0
      · rw [if_pos hm] at hv; cases hv
      · rw [if_neg hm] at hv; injection hv with hv; exact (congrArg Prod.snd hv).symm
    by_cases hK : K < k + n
    · obtain ⟨k', g⟩ := readVarintAtLoopF_fail f p.nextpos maxVarintLen64 k [] bs hl φ K e h1 (by simp; omega) h3 h4
      refine ⟨k', "1", ?_⟩
      unfold Posts.readNextF readVarintAtF
      simp only [g, Posts.wrapErr]
    · obtain ⟨_, g⟩ := readVarintAtLoopF_cost f p.nextpos maxVarintLen64 k [] bs hl
      simp only [List.length_nil, Nat.sub_zero, ← hn] at g
      have hK' : K = k + n := by omega
      subst hK'
      have ev : readVarintAtF φ k f p.nextpos = (k + n, .ok (v, n)) := by
        unfold readVarintAtF
        rw [g φ (fun j _ b => h3 j b)]
        rw [readVarintAt, hl] at hv
        simp only [bind, Except.bind] at hv
        exact Prod.ext rfl hv
      unfold Posts.readNext at hp
      unfold Posts.readNextF
      rw [ev]
      rw [hv] at hp
      simp only [Posts.wrapErr, bind, Except.bind] at hp ⊢
      by_cases hc : v < 0 ∨ (Posts.bufLen : Int) < v
      · rw [if_pos hc] at hp; cases hp
      · rw [if_neg hc]
        refine ⟨k + n + 1, "2", ?_⟩
        simp only [readAtF, h4, fail]

theorem hdr_length_le {b : Blk} (hb : b.WF) : b.hdr.length ≤ 2 ∧ b.hdr.length ≤ 2 * b.deltas.length - 1 := by
  have hs := hb.small
  have h5 : b.payload.length ≤ 5 * b.deltas.length := encDeltas_length_le b.deltas
  have hne : 0 < b.deltas.length := List.length_pos_iff.mpr hb.ne
  have hz : zigzag ((b.payload.length + 8 : Nat) : Int) = 2 * (b.payload.length + 8) := by
    unfold zigzag; rw [if_neg (by omega)]; omega
  have h2 : b.hdr.length ≤ 2 := by
    unfold Blk.hdr putVarint
    rw [hz]
    exact putUvarint_length_le 1 _ (by omega)
  refine ⟨h2, ?_⟩
  by_cases h1 : b.deltas.length = 1
  · have : b.hdr.length ≤ 1 := by
      unfold Blk.hdr putVarint
      rw [hz]
      exact putUvarint_length_le 0 _ (by omega)
    omega
  · omega

/-- a block is read in two calls, or in three if it has more than one docid -/
theorem PostsRep.readNext_cost {f : Bytes} {p : Posts} {rem : List UInt32} (h : PostsRep f p rem)
    (hi : p.i = p.docids.length) (hn : p.nextpos ≠ -1) :
    ∃ p' r, p.readNext f = .ok p' ∧ PostsRep f p' rem ∧ p'.i = 0 ∧ 0 < p'.docids.length ∧ 2 ≤ r ∧ r ≤ 3 ∧ r ≤ 2 * p'.docids.length ∧
      (∀ (k : Nat) (φ : ReadFates), (∀ j, k ≤ j → j < k + r → φ j = none) → p.readNextF φ k f = (k + r, .ok p')) ∧
      ∀ (k : Nat) (φ : ReadFates) (K : Nat) (e : Err), k ≤ K → K < k + r → (∀ j, j < K → φ j = none) → φ K = some e →
        ∃ k' m, p.readNextF φ k f = (k', .error (.err (.wrap m e))) := by
  obtain ⟨p', h1, h2, h3⟩ := h.readNext hi hn
  obtain ⟨o, off, bs, hf, hwf, hlen, hnp, _, hrem⟩ := h
  rw [hnp] at hn
  obtain ⟨bs1, b, bs2, he, ho, hfl, hno⟩ := nextOff_seek o bs _ hn
  have hb : b.WF := hwf b (by simp [he])
  rw [he] at hf
  obtain ⟨pre, post, hfe, hpre⟩ := hf.append.block ho
  rw [he, sizes_append, sizes_cons] at hlen
  have hl1 : -1 ≤ nextOff o (off + sizes bs1 + b.size) bs2 := by
    rcases nextOff_ge o bs2 (off + sizes bs1 + b.size) with h | h <;> omega
  have hl2 : nextOff o (off + sizes bs1 + b.size) bs2 < 2 ^ 63 := by
    have := nextOff_lt o bs2 (off + sizes bs1 + b.size)
    omega
  have hr := readNext_block pre post b hb p _ hl1 hl2 (by rw [hnp, hno, hpre])
  rw [← hfe, h1] at hr
  injection hr with hr
  have hs := hb.small
  have hv : readVarintAt f p.nextpos = .ok (((b.payload.length + 8 : Nat) : Int), b.hdr.length) := by
    have := readVarintAt_put pre (b.payload ++ linkBytes (nextOff o (off + sizes bs1 + b.size) bs2) ++ post) ((b.payload.length + 8 : Nat) : Int) (by omega) (by omega)
    rw [hnp, hno, ← hpre]
    rw [hpre] at this ⊢
    rw [hfe]
    simpa [Blk.hdr] using this
  have hd : p'.docids.length = b.deltas.length := by rw [hr]; simp [runSum_length]
  have hne : 0 < b.deltas.length := List.length_pos_iff.mpr hb.ne
  obtain ⟨g1, g2⟩ := hdr_length_le hb
  exact ⟨p', b.hdr.length + 1, h1, h2, by rw [hr], by omega, by have := putUvarint_length_pos (zigzag ((b.payload.length + 8 : Nat) : Int)); unfold Blk.hdr putVarint; omega,
    by omega, by omega, fun k φ hφ => readNextF_cost hv h1 k φ hφ, fun k φ K e a1 a2 a3 a4 => readNextF_fail hv h1 k φ K e a1 a2 a3 a4⟩

theorem PostsRep.pend_le {f : Bytes} {p : Posts} {rem : List UInt32} (h : PostsRep f p rem) : p.pend ≤ rem.length := by
  obtain ⟨o, off, bs, _, _, _, _, _, hrem⟩ := h
  rw [hrem]; simp [Posts.pend]

/-- the calls of delivering one docid -/
theorem ReadState.next_cost {rs : ReadState} {v : UInt32} {vs : List UInt32} (h : PostsRep rs.file rs.posts (v :: vs)) :
    ∃ p r, PostsRep rs.file p vs ∧
      (r = 0 ∧ rs.posts.pend = p.pend + 1 ∨ rs.posts.pend = 0 ∧ 2 ≤ r ∧ r ≤ 3 ∧ r ≤ 2 * (p.pend + 1)) ∧
      (∀ (k : Nat) (φ : ReadFates), (∀ j, k ≤ j → j < k + r → φ j = none) → rs.nextF φ k = (k + r, .ok (v, { rs with posts := p }))) ∧
      ∀ (k : Nat) (φ : ReadFates) (K : Nat) (e : Err), k ≤ K → K < k + r → (∀ j, j < K → φ j = none) → φ K = some e →
        ∃ k' m, rs.nextF φ k = (k', .error (.err (.wrap m e))) := by
  obtain ⟨p, e, hp⟩ := ReadState.next_step h
  by_cases hi : rs.posts.i = rs.posts.docids.length
  · have hn : rs.posts.nextpos ≠ -1 := by
      intro hn
      obtain ⟨o, off, bs, _, _, _, hnp, _, hrem⟩ := h
      rw [hn] at hnp
      rw [hi, List.drop_length, nextOff_owner_none _ _ _ hnp.symm] at hrem
      simp [runSum] at hrem
    obtain ⟨q, r, h1, _, h3, h4, h5', h5, h6, h7, h8⟩ := h.readNext_cost hi hn
    have ep : p = { q with i := q.i + 1 } := by
      have h0 := e
      simp only [ReadState.next, Posts.next, hi, hn, if_true, if_false, h1, bind, Except.bind] at h0
      cases hq : q.docids[q.i]? with
      | none => rw [hq] at h0; cases h0
      | some d =>
        rw [hq] at h0; simp only [pure, Except.pure] at h0; injection h0 with h0
        exact (congrArg (fun z : UInt32 × ReadState => z.2.posts) h0).symm
    refine ⟨p, r, hp, .inr ⟨by simp [Posts.pend, hi], h5', h5, by rw [ep]; simp only [Posts.pend, h3]; omega⟩, fun k φ hφ => ?_, fun k φ K e a1 a2 a3 a4 => ?_⟩
    case refine_2 =>
      obtain ⟨k', m, g⟩ := h8 k φ K e a1 a2 a3 a4
      exact ⟨k', m, by simp only [ReadState.nextF, Posts.nextF, hi, hn, if_true, if_false, g, bind, Except.bind]⟩
    have := e
    simp only [ReadState.next, Posts.next, hi, hn, if_true, if_false, h1, bind, Except.bind] at this
    simp only [ReadState.nextF, Posts.nextF, hi, hn, if_true, if_false, h7 k φ hφ, bind, Except.bind]
    exact Prod.ext rfl this
  · have hlt : rs.posts.i < rs.posts.docids.length := by obtain ⟨_, _, _, _, _, _, _, hle, _⟩ := h; omega
    have ep : p = { rs.posts with i := rs.posts.i + 1 } := by
      have h0 := e
      simp only [ReadState.next, Posts.next, hi, if_false, bind, Except.bind, pure, Except.pure] at h0
      cases hq : rs.posts.docids[rs.posts.i]? with
      | none => rw [hq] at h0; cases h0
      | some d =>
        rw [hq] at h0; injection h0 with h0
        exact (congrArg (fun z : UInt32 × ReadState => z.2.posts) h0).symm
    refine ⟨p, 0, hp, .inl ⟨rfl, by rw [ep]; simp only [Posts.pend]; omega⟩, fun k φ _ => ?_, fun k φ K e a1 a2 _ _ => by omega⟩
    have := e
    simp only [ReadState.next, Posts.next, hi, if_false, bind, Except.bind, pure, Except.pure] at this
    simp only [ReadState.nextF, Posts.nextF, hi, if_false, bind, Except.bind]
    exact Prod.ext rfl this

theorem ReadState.nextF_eof {rs : ReadState} (h : PostsRep rs.file rs.posts []) (φ : ReadFates) (k : Nat) : rs.nextF φ k = (k, fail .eof) := by
  have hi : rs.posts.i = rs.posts.docids.length := by
    obtain ⟨o, off, bs, _, _, _, _, hle, hrem⟩ := h
    have := congrArg List.length hrem
    simp at this; omega
  have hn : rs.posts.nextpos = -1 := by
    false_or_by_contra
    rename_i hn
    obtain ⟨q, _, ⟨o, off, bs, _, _, _, _, hle, hrem⟩, hlt⟩ := h.readNext hi hn
    have := congrArg List.length hrem
    simp at this; omega
  simp [ReadState.nextF, Posts.nextF, hi, hn, bind, Except.bind]

namespace Query

theorem getLoopF_reads_unlim (grow : Nat → Nat) {x : Index} {D : UInt32 → Bytes × UInt32 × UInt32} (φ : ReadFates) (rem : List UInt32) :
    ∀ (fuel k : Nat) (rs : ReadState) (b : Blot), PostsRep rs.file rs.posts rem → (∀ id ∈ rem, x.docid2Doc id = .ok (D id)) → rem.length < fuel →
    (∀ j, j < k + (4 * rem.length - 2 * rs.posts.pend) → φ j = none) →
    ∃ b', getLoopF φ grow x false fuel k rs b = .ok (b', none) ∧ b'.blot = b.blot ∧ b'.vis = b.vis ++ rem.map (fun id => Doc.ofMeta (D id)) := by
  induction rem with
  | nil =>
    intro fuel k rs b h _ hf _
    obtain ⟨f, rfl⟩ : ∃ f, fuel = f + 1 := ⟨fuel - 1, by simp at hf; omega⟩
    exact ⟨b, by simp [getLoopF, ReadState.nextF_eof h], rfl, by simp⟩
  | cons id rem ih =>
    intro fuel k rs b h hD hf hφ
    obtain ⟨f, rfl⟩ : ∃ f, fuel = f + 1 := ⟨fuel - 1, by simp at hf; omega⟩
    obtain ⟨p, r, h2, h3, h4, _⟩ := ReadState.next_cost h
    have hpl := h2.pend_le
    have hpl0 := h.pend_le
    obtain ⟨b1, g1, g2, g3⟩ := Blot.next_unlim grow b (D id)
    simp only [List.length_cons] at hφ hf hpl0
    obtain ⟨b', k1, k2, k3⟩ := ih f (k + r + 2) { rs with posts := p } (b1.setLast (D id)) h2 (fun i hi => hD i (by simp [hi])) (by omega)
      (fun j hj => hφ j (by simp only [] at hj; omega))
    refine ⟨b', ?_, by rw [k2, g3], by rw [k3, g2]; simp⟩
    simp only [getLoopF, Bool.false_and, h4 k φ (fun j _ hj => hφ j (by omega)), g1, bind, Except.bind,
      docid2DocF_fine φ (k + r) x id (hφ _ (by omega)) (hφ _ (by omega)), hD id (by simp), k1]
    rfl

/-- two calls for each document, and two at least for a block, are made -/
theorem getLoopF_reads_least (grow : Nat → Nat) {x : Index} {D : UInt32 → Bytes × UInt32 × UInt32} (φ : ReadFates) (e : Err) (K : Nat)
    (h3 : ∀ j, j < K → φ j = none) (h4 : φ K = some e) (rem : List UInt32) :
    ∀ (fuel k : Nat) (rs : ReadState) (b : Blot), PostsRep rs.file rs.posts rem → (∀ id ∈ rem, x.docid2Doc id = .ok (D id)) → rem.length < fuel →
    k ≤ K → K < k + (2 * rem.length + if rem ≠ [] ∧ rs.posts.pend = 0 then 2 else 0) →
    ∃ b' e', getLoopF φ grow x false fuel k rs b = .ok (b', some e') := by
  induction rem with
  | nil => intro fuel k rs b _ _ _ h1 h2; simp at h2; omega
  | cons id rem ih =>
    intro fuel k rs b h hD hf h1 h2
    obtain ⟨f, rfl⟩ : ∃ f, fuel = f + 1 := ⟨fuel - 1, by simp at hf; omega⟩
    obtain ⟨p, r, g1, g2, g5, g6⟩ := ReadState.next_cost h
    obtain ⟨b1, c1, _, _⟩ := Blot.next_unlim grow b (D id)
    simp only [List.length_cons, ne_eq, reduceCtorEq, not_false_eq_true, true_and] at h2 hf
    by_cases hK : K < k + r
    · obtain ⟨k', m, g⟩ := g6 k φ K e h1 hK h3 h4
      exact ⟨b, .wrap m e, by simp [getLoopF, g]⟩
    · have hr : K < k + r + 2 + 2 * rem.length := by
        rcases g2 with ⟨a1, a2⟩ | ⟨a1, a2, _⟩
        · rw [if_neg (by omega)] at h2; omega
        · rw [if_pos a1] at h2; omega
      have hn := g5 k φ (fun j _ hj => h3 j (by omega))
      by_cases hs : K = k + r
      · subst hs
        exact ⟨b1, .wrap "internal error docid2Doc" (.wrap "docid2Doc" e), by
          simp [getLoopF, hn, c1, bind, Except.bind, docid2DocF_seek φ (k + r) x id h4, fail]⟩
      · by_cases hs2 : K = k + r + 1
        · have e0 : x.docid2DocF φ (k + r) id = (k + r + 2, fail (.wrap "docid2Doc" e)) := by
            unfold Index.docid2DocF Dmd.lookupF
            simp only [h3 (k + r) (by omega), ← hs2, h4, fail]
          exact ⟨b1, .wrap "internal error docid2Doc" (.wrap "docid2Doc" e), by
            simp [getLoopF, hn, c1, bind, Except.bind, e0, fail]⟩
        · obtain ⟨b', e', a⟩ := ih f (k + r + 2) { rs with posts := p } (b1.setLast (D id)) g1 (fun i hi => hD i (by simp [hi])) (by omega)
            (by omega) (by omega)
          refine ⟨b', e', ?_⟩
          simp only [getLoopF, Bool.false_and, hn, c1, bind, Except.bind,
            docid2DocF_fine φ (k + r) x id (h3 _ (by omega)) (h3 _ (by omega)), hD id (by simp), a]
          rfl

/-- the calls of delivering `j` docids when `p` are at hand and more may be left over -/
def limCalls (j p : Nat) : Nat := if j ≤ p then 2 * j else 4 * j - 2 * p + 1

theorem getLoopF_reads_lim (grow : Nat → Nat) {x : Index} {D : UInt32 → Bytes × UInt32 × UInt32} (φ : ReadFates) (bl : UInt32) (rem : List UInt32) :
    ∀ (fuel k : Nat) (rs : ReadState) (v s : List Doc), PostsRep rs.file rs.posts rem → (∀ id ∈ rem, x.docid2Doc id = .ok (D id)) → rem.length < fuel →
    (∀ j, j < k + limCalls (min s.length rem.length) rs.posts.pend → φ j = none) →
    getLoopF φ grow x true fuel k rs ⟨bl, some ⟨v, s⟩⟩ =
      .ok (⟨bl, some ⟨v ++ List.zipWith (fun d id => d.fill (D id)) s rem, s.drop rem.length⟩⟩, none) := by
  induction rem with
  | nil =>
    intro fuel k rs v s h _ hf _
    obtain ⟨f, rfl⟩ : ∃ f, fuel = f + 1 := ⟨fuel - 1, by simp at hf; omega⟩
    simp [getLoopF, ReadState.nextF_eof h]
  | cons id rem ih =>
    intro fuel k rs v s h hD hf hφ
    obtain ⟨f, rfl⟩ : ∃ f, fuel = f + 1 := ⟨fuel - 1, by simp at hf; omega⟩
    cases s with
    | nil => simp [getLoopF, Blot.len, Blot.cap]
    | cons d s =>
      obtain ⟨p, r, h2, h3, h4, _⟩ := ReadState.next_cost h
      have hpl := h2.pend_le
      obtain ⟨b1, g1, g2⟩ := Blot.next_lim grow bl v d s (D id)
      simp only [List.length_cons] at hφ hf
      have hm : min (s.length + 1) (rem.length + 1) = min s.length rem.length + 1 := by omega
      rw [hm] at hφ
      obtain ⟨m, hm'⟩ : ∃ m, m = min s.length rem.length := ⟨_, rfl⟩
      rw [← hm'] at hφ
      have hb : r + 2 + limCalls m p.pend ≤ limCalls (m + 1) rs.posts.pend := by
        unfold limCalls
        rcases h3 with ⟨h5, h6⟩ | ⟨h5, _, h6, h7⟩
        · rw [h5, h6]
          by_cases hc : m ≤ p.pend
          · rw [if_pos hc, if_pos (by omega)]; omega
          · rw [if_neg hc, if_neg (by omega)]; omega
        · rw [h5, if_neg (by omega : ¬ m + 1 ≤ 0)]
          by_cases hc : m ≤ p.pend
          · rw [if_pos hc]; omega
          · rw [if_neg hc]; omega
      have := ih f (k + r + 2) { rs with posts := p } (v ++ [d.fill (D id)]) s h2 (fun i hi => hD i (by simp [hi])) (by omega)
        (fun j hj => hφ j (by rw [← hm'] at hj; simp only [] at hj; omega))
      have hb2 : r + 2 ≤ limCalls (m + 1) rs.posts.pend := by omega
      simp only [getLoopF, Blot.len, Blot.cap, h4 k φ (fun j _ hj => hφ j (by omega)), g1, bind, Except.bind,
        docid2DocF_fine φ (k + r) x id (hφ _ (by omega)) (hφ _ (by omega)), hD id (by simp), g2, this]
      simp

end Query
end Dupi
