import Verif.Proof.CrashAppend
/-! # A posting file left between the patch of a link and the block it leads to -/

namespace Dupi
open Spec

/-- reading the blocks of a bucket in a file whose last link leads to the end of the file -/
def Dangle (f : Bytes) (p : Posts) (rem : List UInt32) : Prop :=
  ∃ (o off : Nat) (bs : List Blk) (nb : Blk) (f3 : Bytes), nb.owner = o ∧ Covers o f3 off (bs ++ [nb]) ∧ f = f3.take (off + sizes bs) ∧
    f.length = off + sizes bs ∧ (∀ b ∈ bs, b.WF) ∧ off + sizes bs < 2 ^ 63 ∧ p.nextpos = nextOff o off (bs ++ [nb]) ∧ p.i ≤ p.docids.length ∧
    rem = p.docids.drop p.i ++ runSum p.current (flushed o bs)

theorem nextOff_snoc_here {o : Nat} {nb : Blk} (h : nb.owner = o) (bs : List Blk) : ∀ off, nextOff o off bs = -1 →
    nextOff o off (bs ++ [nb]) = ((off + sizes bs : Nat) : Int) := by
  induction bs with
  | nil => intro off _; simp [nextOff, h, sizes]
  | cons b bs ih =>
    intro off hn
    rw [nextOff] at hn
    split at hn
    · omega
    · rename_i hb
      rw [List.cons_append, nextOff, if_neg hb, ih _ hn, sizes_cons]
      congr 1; omega

theorem nextOff_snoc_there {o : Nat} {nb : Blk} (bs : List Blk) : ∀ off, nextOff o off bs ≠ -1 → nextOff o off (bs ++ [nb]) = nextOff o off bs := by
  induction bs with
  | nil => intro off hn; simp [nextOff] at hn
  | cons b bs ih =>
    intro off hn
    rw [nextOff] at hn
    rw [List.cons_append, nextOff, nextOff]
    split at hn
    · rename_i hb; rw [if_pos hb, if_pos hb]
    · rename_i hb; rw [if_neg hb, if_neg hb, ih _ hn]

theorem Dangle.readNext {f : Bytes} {p : Posts} {rem : List UInt32} (h : Dangle f p rem) (hi : p.i = p.docids.length) :
    (rem = [] ∧ p.nextpos = (f.length : Int)) ∨ ∃ p', p.readNext f = .ok p' ∧ Dangle f p' rem ∧ p'.i < p'.docids.length := by
  obtain ⟨o, off, bs, nb, f3, hnb, hc, hf, hfl, hwf, hlen, hnp, _, hrem⟩ := h
  by_cases hn : nextOff o off bs = -1
  · left
    rw [nextOff_snoc_here hnb bs off hn] at hnp
    rw [hi, List.drop_length, nextOff_owner_none _ _ _ hn] at hrem
    exact ⟨by rw [hrem]; rfl, by rw [hnp, hfl]⟩
  · right
    rw [nextOff_snoc_there bs off hn] at hnp
    obtain ⟨bs1, b, bs2, he, ho, hfl1, hno⟩ := nextOff_seek o bs _ hn
    have hb : b.WF := hwf b (by simp [he])
    rw [he, List.append_assoc, List.cons_append] at hc
    have hc' := hc.append
    obtain ⟨pre, post, hfe, hpre⟩ := hc'.block ho
    have hsz : sizes bs = sizes bs1 + (b.size + sizes bs2) := by rw [he, sizes_append, sizes_cons]
    have hl1 : -1 ≤ nextOff o (off + sizes bs1 + b.size) (bs2 ++ [nb]) := by
      rcases nextOff_ge o (bs2 ++ [nb]) (off + sizes bs1 + b.size) with h | h <;> omega
    have hl2 : nextOff o (off + sizes bs1 + b.size) (bs2 ++ [nb]) < 2 ^ 63 := by
      by_cases hn2 : nextOff o (off + sizes bs1 + b.size) bs2 = -1
      · rw [nextOff_snoc_here hnb bs2 _ hn2]; omega
      · rw [nextOff_snoc_there bs2 _ hn2]
        have := nextOff_lt o bs2 (off + sizes bs1 + b.size)
        omega
    have hfe' : f = pre ++ (b.hdr ++ (b.payload ++ linkBytes (nextOff o (off + sizes bs1 + b.size) (bs2 ++ [nb])))) ++ post.take (sizes bs2) := by
      rw [hf, hfe]
      have : off + sizes bs = (pre ++ (b.hdr ++ (b.payload ++ linkBytes (nextOff o (off + sizes bs1 + b.size) (bs2 ++ [nb]))))).length + sizes bs2 := by
        rw [List.length_append, blk_bytes_length, hpre, hsz]; omega
      rw [this, List.take_length_add_append]
    have := readNext_block pre (post.take (sizes bs2)) b hb p _ hl1 hl2 (by rw [hnp, hno, hpre])
    rw [← hfe'] at this
    refine ⟨_, this, ⟨o, off + sizes bs1 + b.size, bs2, nb, f3, hnb, hc'.2, ?_, ?_, fun c hc => hwf c (by simp [he, hc]), by omega, rfl, by simp, ?_⟩, ?_⟩
    · rw [hf, hsz]; congr 1; omega
    · rw [hfl, hsz]; omega
    · rw [hrem, hi, List.drop_length, List.nil_append, he, flushed_seek ho hfl1, runSum_append]; simp
    · simp only [runSum_length]; exact List.length_pos_iff.mpr hb.ne

theorem Dangle.step {f : Bytes} {p : Posts} {v : UInt32} {rem : List UInt32} (h : Dangle f p (v :: rem)) :
    ∃ p', p.next f = .ok (v, p') ∧ Dangle f p' rem := by
  have key : ∀ q : Posts, Dangle f q (v :: rem) → q.i < q.docids.length →
      q.docids[q.i]? = some v ∧ Dangle f { q with i := q.i + 1 } rem := by
    intro q hq hlt
    obtain ⟨o, off, bs, nb, f3, g1, g2, g3, g4, g5, g6, g7, _, hrem⟩ := hq
    rw [List.drop_eq_getElem_cons hlt, List.cons_append] at hrem
    injection hrem with h1 h2
    exact ⟨by rw [List.getElem?_eq_getElem hlt, h1], o, off, bs, nb, f3, g1, g2, g3, g4, g5, g6, g7, hlt, h2⟩
  unfold Posts.next
  by_cases hi : p.i = p.docids.length
  · rcases h.readNext hi with ⟨e, _⟩ | ⟨q, hq, hrep, hlt⟩
    · simp at e
    · have hn : p.nextpos ≠ -1 := by
        intro hn
        simp [Posts.readNext, hn, readVarintAt, readVarintAtLoop, readAt, fail, Posts.wrapErr, bind, Except.bind] at hq
      obtain ⟨h1, h2⟩ := key q hrep hlt
      exact ⟨_, by simp [hi, hn, hq, bind, Except.bind, h1, pure, Except.pure], h2⟩
  · have hlt : p.i < p.docids.length := by obtain ⟨_, _, _, _, _, _, _, _, _, _, _, _, hle, _⟩ := h; omega
    obtain ⟨h1, h2⟩ := key p h hlt
    exact ⟨_, by simp [hi, bind, Except.bind, h1, pure, Except.pure], h2⟩

/-- after the last block: an error, not the end of the list -/
theorem Dangle.ends {f : Bytes} {p : Posts} (h : Dangle f p []) : p.next f = fail (.wrap "1" .eof) := by
  have hi : p.i = p.docids.length := by
    obtain ⟨_, _, _, _, _, _, _, _, _, _, _, _, hle, hrem⟩ := h
    have := congrArg List.length hrem
    simp at this; omega
  have hn : p.nextpos = (f.length : Int) := by
    rcases h.readNext hi with ⟨_, h⟩ | ⟨q, _, ⟨_, _, _, _, _, _, _, _, _, _, _, _, hle, hrem⟩, hlt⟩
    · exact h
    · have := congrArg List.length hrem
      simp at this; omega
  have hr : readAt f (f.length : Int) 1 = fail .eof := by
    simp only [readAt, if_neg (show ¬ ((f.length : Int) < 0) by omega)]
    simp
  have hv : readVarintAt f (f.length : Int) = fail .eof := by
    simp only [readVarintAt, readVarintAtLoop, List.length_nil, bind, Except.bind]
    rw [show (f.length : Int) + ((0 : Nat) : Int) = f.length by omega, hr]
  simp only [Posts.next, hi, if_true, hn, if_neg (show ¬ ((f.length : Int) = -1) by omega), Posts.readNext, hv, bind, Except.bind]
  simp [fail, Posts.wrapErr]

theorem getLoop_dangle (grow : Nat → Nat) {x : Index} {D : UInt32 → Bytes × UInt32 × UInt32} (rem : List UInt32) :
    ∀ (fuel : Nat) (rs : ReadState) (b : Blot), Dangle rs.file rs.posts rem → (∀ id ∈ rem, x.docid2Doc id = .ok (D id)) → rem.length < fuel →
    Query.getLoop grow x false fuel rs b = fail (.wrap "1" .eof) := by
  induction rem with
  | nil =>
    intro fuel rs b h _ hf
    obtain ⟨f, rfl⟩ : ∃ f, fuel = f + 1 := ⟨fuel - 1, by simp at hf; omega⟩
    have : rs.next = fail (.wrap "1" .eof) := by simp only [ReadState.next, h.ends, bind, Except.bind, fail]
    simp [Query.getLoop, this, fail]
  | cons id rem ih =>
    intro fuel rs b h hD hf
    obtain ⟨f, rfl⟩ : ∃ f, fuel = f + 1 := ⟨fuel - 1, by simp at hf; omega⟩
    obtain ⟨p, h1, h2⟩ := h.step
    have h1' : rs.next = .ok (id, { rs with posts := p }) := by simp only [ReadState.next, h1, bind, Except.bind, pure, Except.pure]
    obtain ⟨b1, g1, g2, g3⟩ := Blot.next_unlim grow b (D id)
    have := ih f { rs with posts := p } (b1.setLast (D id)) h2 (fun i hi => hD i (by simp [hi])) (by simp at hf; omega)
    simp only [Query.getLoop, Bool.false_and, h1', g1, bind, Except.bind, hD id (by simp), this]
    rfl

/-- the file after the patch of a link is read like this -/
theorem Dangle.new {o : Nat} {bs : List Blk} (hwf : ∀ b ∈ bs, b.WF) (hlen : (render 0 bs).length < 2 ^ 63) (hl : lastLink o 0 bs ≠ -1) :
    Dangle (patched o 0 bs) (Posts.new (nextOff o 0 bs)) (runSum 0 (flushed o bs)) := by
  have hn : nextOff o 0 bs ≠ -1 := fun e => hl ((lastLink_none _ _ _).mpr e)
  rw [render_length] at hlen
  have hr := render_append ⟨o, [0]⟩ bs 0
  have hpl : (patched o 0 bs).length = sizes bs := by
    have h1 := congrArg List.length hr
    rw [render_length, sizes_append, List.length_append, blk_bytes_length] at h1
    simp [sizes] at h1 ⊢
    omega
  refine ⟨o, 0, bs, ⟨o, [0]⟩, render 0 (bs ++ [⟨o, [0]⟩]), rfl, ?_, ?_, by rw [hpl]; omega, hwf, by omega, (nextOff_snoc_there bs 0 hn).symm, by simp [Posts.new],
    by simp [Posts.new]⟩
  · have := Covers.render o (bs ++ [⟨o, [0]⟩]) [] []; simpa using this
  · rw [hr, Nat.zero_add, List.take_left' hpl]

theorem writeAt_length_ge (f : Bytes) (off : Nat) (data : Bytes) : f.length ≤ (writeAt f off data).length := by
  unfold writeAt
  simp only [List.length_append, List.length_take, List.length_drop, List.length_replicate]
  omega

theorem applyWrites_length_ge (ws : List (Nat × Bytes)) : ∀ f : Bytes, f.length ≤ (Poster.applyWrites f ws).length := by
  induction ws with
  | nil => intro f; exact Nat.le_refl _
  | cons w ws ih => intro f; exact Nat.le_trans (writeAt_length_ge f w.1 w.2) (ih _)

theorem nextOff_append_left {o : Nat} (a b : List Blk) : ∀ off, nextOff o off a ≠ -1 → nextOff o off (a ++ b) = nextOff o off a := by
  induction a with
  | nil => intro off h; simp [nextOff] at h
  | cons c a ih =>
    intro off h
    rw [nextOff] at h
    rw [List.cons_append, nextOff, nextOff]
    split at h
    · rename_i hb; rw [if_pos hb, if_pos hb]
    · rename_i hb; rw [if_neg hb, if_neg hb, ih _ h]

theorem flushed_other {o : Nat} (ex : List Blk) (h : ∀ b ∈ ex, b.owner ≠ o) : flushed o ex = [] := by
  have : ex.filter (·.owner = o) = [] := List.filter_eq_nil_iff.mpr fun b hb => by simpa using h b hb
  simp [flushed, this]

/-- the table of an old shard -/
theorem init_head {bs : List Blk} {ps : List Poster} {vals : Nat → List UInt32} (h : ClosedRep 65536 bs ps vals) (hl : (render 0 bs).length < 2 ^ 63)
    {srt : Sorter} {post : Bytes} {s : ShardIndex} (hs : ShardIndex.init srt 65536 ⟨post, ps.flatMap ShardIndexer.iixEntry⟩ = .ok s)
    {o : Nat} (ho : o < 65536) :
    ∃ ct, s.heads[o]? = some (nextOff o 0 bs) ∧ s.counts[o]? = some ct ∧ s.file = post ∧ vals o = runSum 0 (flushed o bs) := by
  have hread := index_readIix_spec bs hl vals ps 0 (by simpa using h.rep)
  rw [h.len] at hread
  simp only [ShardIndex.init, hread, bind, Except.bind, pure, Except.pure, Except.ok.injEq] at hs
  subst hs
  obtain ⟨p, hp⟩ : ∃ p, ps[o]? = some p := ⟨_, List.getElem?_eq_getElem (by rw [h.len]; exact ho)⟩
  obtain ⟨hr, hpe⟩ := h.rep o p hp
  refine ⟨p.total, by simp [hp, hr.head], by simp [hp], rfl, ?_⟩
  obtain ⟨ds, h1, h2⟩ := hr.pend
  have hds : ds = [] := by
    false_or_by_contra
    rename_i hne
    exact encDeltas_ne hne (by rw [← h1]; exact hpe)
  rw [hds, List.append_nil] at h2
  rw [h2, runSum_deltasFrom]

/-- a blot's bucket, when the chain of its blocks ends outside the file -/
theorem get_dangle {y : Index} {n : Nat} (h0 : 0 < n) (hn : n < 2 ^ 32) (b : UInt32)
    {s : ShardIndex} (hs : y.shards[b.toNat % n]? = some s) {hd : Int} {ct : UInt32} (hh : s.heads[b.toNat / n % 65536]? = some hd)
    (hc : s.counts[b.toNat / n % 65536]? = some ct) {ids : List UInt32} (hp : Dangle s.file (Posts.new hd) ids)
    {D : UInt32 → Bytes × UInt32 × UInt32} (hD : ∀ id ∈ ids, y.docid2Doc id = .ok (D id)) (grow : Nat → Nat) {fuel : Nat} (hfuel : ids.length < fuel)
    {q : QState} (hq : q.n = UInt32.ofNat n) : Query.get grow y fuel q ⟨b, none⟩ = fail (.wrap "1" .eof) := by
  have e : q.n.toNat = n := by rw [hq]; simp only [UInt32.toNat_ofNat']; omega
  have hz : q.n ≠ 0 := by intro hc; rw [hc] at e; simp at e; omega
  have e1 : (b % q.n).toNat = b.toNat % n := by rw [UInt32.toNat_mod, e]
  have e2 : (b / q.n).toUInt16.toNat = b.toNat / n % 65536 := by rw [UInt32.toNat_toUInt16, UInt32.toNat_div, e]
  have k1 := getLoop_dangle grow ids fuel ⟨s.id, b.toNat / n % 65536, 0, ct, Posts.new hd, s.file⟩ ⟨b, none⟩ hp hD hfuel
  simp only [Query.get, if_neg hz, e1, hs, e2, ShardIndex.readStateFor, ShardIndex.readStateForBlotAt, hh, hc, bind, Except.bind, Option.isSome_none]
  exact k1

section
variable {u : Uni} {J : CfgCodec} {c : Config} (hU : Usable J c) {old : List Document} {d : Dir} {x : Indexer} {cwd : Bytes} {new : List Doc} {tr : Trace} {d' : Dir}
  (A : Appending u J c old d x cwd new tr d')
include hU A

/-- the moment between the patch of a link and the block it leads to -/
theorem Appending.patch {j : Nat} (hj : j < c.numShards.toNat) {o : Nat} (ho : o < 65536) (hold : postings (shardPosts u c j 1 old) o ≠ [])
    (hlt : (postings (shardPosts u c j 1 old) o).length < (postings (shardPosts u c j 1 (old ++ added cwd new)) o).length)
    (hle : (postings (shardPosts u c j 1 (old ++ added cwd new)) o).length ≤ (postings (shardPosts u c j 1 old) o).length + 102) :
    ∃ (bs : List Blk) (ps : List Poster) (ws1 ws3 : List (Nat × Bytes)) (w : Nat × Bytes) (ops : List Op) (B : List Blk),
      d (.iix j) = some (ps.flatMap ShardIndexer.iixEntry) ∧ ClosedRep 65536 bs ps (postings (shardPosts u c j 1 old)) ∧ (render 0 bs).length < 2 ^ 63 ∧
      tr.shard j = ShardIndexer.posOps j (ws1 ++ [w]) ++ ShardIndexer.posOps j ws3 ++ ops ∧
      onFiles (onFiles (d (.pos j)) (tr.serve j)) (ShardIndexer.posOps j (ws1 ++ [w])) = some (patched o 0 B) ∧
      nextOff o 0 B = nextOff o 0 bs ∧ flushed o B = flushed o bs ∧ (∀ b ∈ B, b.WF) ∧ (render 0 B).length < 2 ^ 63 ∧ lastLink o 0 B ≠ -1 := by
  obtain ⟨bs, ps, ws, wsc, ps', y, ex, h1, h2, h3, h4, h5, h6, h7, h8, ⟨q1, q2, q3, q4, q5⟩, h9, h10, h11⟩ := A.shardOn hU hj
  obtain ⟨_, hex⟩ := (h11 o ho).1 hle
  have hfl := h3.flushed ho
  obtain ⟨p, hp⟩ : ∃ p, y.ind[o]? = some p := ⟨_, List.getElem?_eq_getElem (by rw [q4]; exact ho)⟩
  rw [q1] at h10
  obtain ⟨ws1, ws2, ws3, ex2, p', e1, e2, e2', e3, e4, e5, _, _⟩ := flushIndWrites_split (postings (shardPosts u c j 1 (old ++ added cwd new)))
    y.ind 0 _ o p (Nat.zero_le _) (by simpa using hp) q2 (by simpa using q5) h10
  have hfB : flushed o (bs ++ ex ++ ex2) = flushed o bs := by
    simp only [flushed, List.filter_append, List.flatMap_append]
    have f1 := flushed_other ex hex
    have f2 := flushed_other ex2 e2
    unfold flushed at f1 f2
    rw [f1, f2]; simp
  have hn : nextOff o 0 bs ≠ -1 := by
    intro hn
    have := nextOff_owner_none _ _ _ hn
    rw [this] at hfl
    exact hold (List.length_eq_zero_iff.mp (by simpa using hfl.symm))
  have hnB : nextOff o 0 (bs ++ ex ++ ex2) = nextOff o 0 bs := by rw [List.append_assoc]; exact nextOff_append_left _ _ _ hn
  have hlB : lastLink o 0 (bs ++ ex ++ ex2) ≠ -1 := fun e => by
    have := (lastLink_none _ _ _).mp e
    rw [hnB] at this
    exact hn this
  have hpend : p.posts ≠ [] := by
    intro he
    obtain ⟨ds, r1, r2⟩ := e4.pend
    rw [he] at r1
    have hds : ds = [] := by
      cases ds with
      | nil => rfl
      | cons a ds => have := encDeltas_pos (ds := a :: ds) (by simp); rw [← r1] at this; simp at this
    have r3 := congrArg List.length r2
    rw [List.length_append, deltasFrom_length, hfB, hds, hfl] at r3
    simp at r3
    omega
  have hlink := e4.link
  have hge := lastLink_ge o (bs ++ ex ++ ex2) 0
  obtain ⟨w, ws2', hw⟩ : ∃ w ws2', ws2 = w :: ws2' ∧ w.1 = (lastLink o 0 (bs ++ ex ++ ex2)).toNat ∧ w.2 = be64 (UInt64.ofNat (render 0 (bs ++ ex ++ ex2)).length) := by
    unfold Poster.flushWrites at e5
    rw [if_neg hpend, hlink, if_pos hlB, if_neg (by omega)] at e5
    simp only [bind, Except.bind, pure, Except.pure, Except.ok.injEq, Prod.mk.injEq] at e5
    exact ⟨_, _, e5.1.symm, rfl, rfl⟩
  obtain ⟨hw, hw1, hw2⟩ := hw
  have hafter : onFiles (onFiles (d (.pos j)) (tr.serve j)) (ShardIndexer.posOps j (ws1 ++ [w])) = some (patched o 0 (bs ++ ex ++ ex2)) := by
    rw [h9, onFiles_posOps, applyWrites_append, q1, e3, patched, if_neg hlB]
    simp only [Poster.applyWrites, List.foldl_cons, List.foldl_nil, hw1, hw2]
    rw [← linkBytes_nat, render_length, Nat.zero_add]
    simp
  refine ⟨bs, ps, ws1, ws2' ++ ws3, w, .trunc (.iix j) :: Op.writes (.iix j) 0 (ps'.flatMap ShardIndexer.iixChunks), bs ++ ex ++ ex2, h2, h3, h4, ?_, hafter, hnB, hfB, ?_, ?_, hlB⟩
  · rw [h6, e1, hw]
    simp [ShardIndexer.posOps]
  · intro b hb
    rcases List.mem_append.mp hb with hb | hb
    · exact q2 b hb
    · exact e2' b hb
  · obtain ⟨bs', ps'', r1, _, _, r4⟩ := (A.final hU).small A.fits.posts hj
    rw [h7, h9, onFiles_posOps, e1, hw, q1] at r1
    injection r1 with r1
    rw [← r1, List.append_assoc, applyWrites_append, e3] at r4
    have := applyWrites_length_ge (w :: ws2' ++ ws3) (render 0 (bs ++ ex ++ ex2))
    omega

end
end Dupi
