import Verif.Proof.Blocks
/-! # Reading the posting file -/

namespace Dupi

theorem readAt_mid (A B C : Bytes) : readAt (A ++ B ++ C) (A.length : Int) B.length = .ok B := by
  unfold readAt
  rw [if_neg (by omega)]
  split
  · rename_i h; rw [List.length_eq_zero_iff.mp h]
  · rw [if_pos (by simp)]
    simp

theorem readVarintAtLoop_put (pre rest : Bytes) (x : Nat) : ∀ (fuel : Nat) (acc : Bytes),
    (putUvarint x).length ≤ fuel →
    readVarintAtLoop (pre ++ acc ++ putUvarint x ++ rest) (pre.length : Int) fuel acc = .ok (acc ++ putUvarint x) := by
  induction x using Nat.strongRecOn with
  | ind x ih =>
    intro fuel acc hf
    cases fuel with
    | zero => have := putUvarint_length_pos x; omega
    | succ fuel =>
      have key : ∀ (b : UInt8) (r : Bytes), readAt (pre ++ acc ++ [b] ++ r) ((pre.length : Int) + (acc.length : Int)) 1 = .ok [b] := by
        intro b r
        have := readAt_mid (pre ++ acc) [b] r
        simpa using this
      by_cases h : x < 128
      · rw [putUvarint_small h]
        simp only [readVarintAtLoop, key, bind, Except.bind, pure, Except.pure]
        have : UInt8.ofNat x < 0x80 := by rw [u8_lt_iff, toNat_ofNat_small (by omega)]; exact h
        simp [this]
      · have h' : 128 ≤ x := by omega
        rw [putUvarint_big h'] at hf ⊢
        have e : pre ++ acc ++ (UInt8.ofNat x ||| 0x80) :: putUvarint (x / 128) ++ rest =
            pre ++ acc ++ [UInt8.ofNat x ||| 0x80] ++ (putUvarint (x / 128) ++ rest) := by simp
        simp only [readVarintAtLoop]
        rw [e, key]
        simp only [bind, Except.bind]
        have hn := u8_cont_not_lt x
        have := ih (x / 128) (by omega) fuel (acc ++ [UInt8.ofNat x ||| 0x80]) (by simp at hf; omega)
        have e2 : pre ++ (acc ++ [UInt8.ofNat x ||| 0x80]) ++ putUvarint (x / 128) ++ rest =
            pre ++ acc ++ [UInt8.ofNat x ||| 0x80] ++ (putUvarint (x / 128) ++ rest) := by simp
        rw [e2] at this
        simp [hn]
        simpa using this

theorem readVarintAt_put (pre rest : Bytes) (x : Int) (h1 : -(2 ^ 63) ≤ x) (h2 : x < 2 ^ 63) :
    readVarintAt (pre ++ putVarint x ++ rest) (pre.length : Int) = .ok (x, (putVarint x).length) := by
  unfold readVarintAt
  have := readVarintAtLoop_put pre rest (zigzag x) maxVarintLen64 []
    (putUvarint_length_u64 (zigzag_lt x h1 h2))
  simp only [List.append_nil] at this
  simp only [putVarint, this, bind, Except.bind, List.nil_append]
  have hv := varint_put x [] h1 h2
  simp only [putVarint, List.append_nil] at hv
  rw [hv]
  have := putUvarint_length_pos (zigzag x)
  simp only []
  rw [if_neg (by omega)]
  rfl

/-- the docids with the given deltas -/
def runSum (c : UInt32) : List UInt32 → List UInt32
  | [] => []
  | d :: ds => (c + d) :: runSum (c + d) ds

def sumFrom (c : UInt32) (ds : List UInt32) : UInt32 := ds.foldl (· + ·) c

theorem runSum_append (c : UInt32) (a b : List UInt32) :
    runSum c (a ++ b) = runSum c a ++ runSum (sumFrom c a) b := by
  induction a generalizing c with
  | nil => rfl
  | cons d a ih => simp [runSum, ih, sumFrom]

theorem sumFrom_append (c : UInt32) (a b : List UInt32) : sumFrom c (a ++ b) = sumFrom (sumFrom c a) b := by
  simp [sumFrom]

theorem runSum_length (c : UInt32) (a : List UInt32) : (runSum c a).length = a.length := by
  induction a generalizing c with
  | nil => rfl
  | cons d a ih => simp [runSum, ih]

theorem encDeltas_cons (d : UInt32) (ds : List UInt32) : encDeltas (d :: ds) = putUvarint d.toNat ++ encDeltas ds := by
  simp [encDeltas]

theorem encDeltas_append (a b : List UInt32) : encDeltas (a ++ b) = encDeltas a ++ encDeltas b := by
  simp [encDeltas]

theorem encDeltas_ne {ds : List UInt32} (h : ds ≠ []) : encDeltas ds ≠ [] := by
  cases ds with
  | nil => exact absurd rfl h
  | cons d ds => rw [encDeltas_cons]; intro h; have := putUvarint_ne_nil d.toNat; simp_all

theorem encDeltas_pos {ds : List UInt32} (h : ds ≠ []) : 0 < (encDeltas ds).length :=
  List.length_pos_iff.mpr (encDeltas_ne h)

theorem encDeltas_length_ge (ds : List UInt32) : ds.length ≤ (encDeltas ds).length := by
  induction ds with
  | nil => simp
  | cons d ds ih =>
    rw [encDeltas_cons]
    have := putUvarint_length_pos d.toNat
    simp; omega

theorem decodeLoop_enc (last8 : Bytes) (h8 : last8.length = 8) (ds : List UInt32) :
    ∀ (done : Bytes) (fuel : Nat) (c : UInt32) (docids : List UInt32), ds ≠ [] → ds.length < fuel →
    Posts.decodeLoop (done ++ encDeltas ds ++ last8) fuel done.length c docids =
      .ok ((done ++ encDeltas ds).length, sumFrom c ds, docids ++ runSum c ds) := by
  induction ds with
  | nil => intro _ _ _ _ h; exact absurd rfl h
  | cons d ds ih =>
    intro done fuel c docids _ hf
    cases fuel with
    | zero => omega
    | succ fuel =>
      have hd : d.toNat < 2 ^ 32 := d.toNat_lt
      simp only [Posts.decodeLoop, encDeltas_cons]
      have hdrop : List.drop done.length (done ++ (putUvarint d.toNat ++ encDeltas ds) ++ last8) =
          putUvarint d.toNat ++ (encDeltas ds ++ last8) := by
        simp [List.append_assoc]
      rw [hdrop, uvarint_put _ _ (by omega)]
      have hpos := putUvarint_length_pos d.toNat
      simp only []
      rw [if_neg (by omega), if_neg (by omega)]
      have hofnat : UInt32.ofNat d.toNat = d := by simp
      rw [hofnat]
      by_cases hds : ds = []
      · subst hds
        rw [if_neg (by simp [encDeltas, h8]; omega), if_pos (by simp [encDeltas, h8]; omega)]
        simp [encDeltas, sumFrom, runSum]
      · have hp := encDeltas_pos hds
        rw [if_neg (by simp [h8]; omega), if_neg (by simp [h8]; omega)]
        have := ih (done ++ putUvarint d.toNat) fuel (c + d) (docids ++ [c + d]) hds (by simp at hf; omega)
        simp only [List.append_assoc, List.length_append] at this ⊢
        simp only [Int.toNat_natCast]
        rw [this]
        simp [runSum, sumFrom]

theorem seek (o : Nat) (bs : List Blk) : ∀ off, nextOff o off bs ≠ -1 →
    ∃ bs1 b bs2 A, bs = bs1 ++ b :: bs2 ∧ b.owner = o ∧ flushed o bs1 = [] ∧
      nextOff o off bs = ((off + sizes bs1 : Nat) : Int) ∧ A.length = sizes bs1 ∧
      render off bs = A ++ render (off + sizes bs1) (b :: bs2) := by
  induction bs with
  | nil => intro off h; simp [nextOff] at h
  | cons b bs ih =>
    intro off h
    by_cases hb : b.owner = o
    · exact ⟨[], b, bs, [], by simp, hb, by simp [flushed], by simp [nextOff, hb, sizes], by simp [sizes], by simp [sizes]⟩
    · simp only [nextOff, hb, if_false] at h
      obtain ⟨bs1, b', bs2, A, he, ho, hf, hn, hA, hr⟩ := ih _ h
      refine ⟨b :: bs1, b', bs2, b.hdr ++ (b.payload ++ linkBytes (nextOff b.owner (off + b.size) bs)) ++ A, by simp [he], ho, ?_, ?_, ?_, ?_⟩
      · simp only [flushed] at hf ⊢; simp [hb, hf]
      · simp only [nextOff, hb, if_false, hn, sizes_cons, Nat.add_assoc]
      · simp [hA, sizes_cons, linkBytes_length, Blk.size]; omega
      · simp only [render, hr, sizes_cons, Nat.add_assoc, List.append_assoc]

theorem flushed_seek {o : Nat} {bs1 : List Blk} {b : Blk} {bs2 : List Blk} (hb : b.owner = o) (h1 : flushed o bs1 = []) :
    flushed o (bs1 ++ b :: bs2) = b.deltas ++ flushed o bs2 := by
  simp only [flushed] at *
  simp [h1, hb]

theorem getBE64_linkBytes (l : Int) (rest : Bytes) (h1 : -(2 ^ 63) ≤ l) (h2 : l < 2 ^ 63) :
    ∃ u, getBE64 (linkBytes l ++ rest) = .ok u ∧ u64ToI64 u = l :=
  ⟨_, getBE64_be64 _ _, u64ToI64_i64ToU64 l h1 h2⟩

/-- reading a block -/
theorem readNext_block (pre post : Bytes) (b : Blk) (hb : b.WF) (p : Posts) (l : Int) (hl1 : -1 ≤ l) (hl2 : l < 2 ^ 63)
    (hp : p.nextpos = (pre.length : Int)) :
    p.readNext (pre ++ (b.hdr ++ (b.payload ++ linkBytes l)) ++ post) =
      .ok ⟨0, l, sumFrom p.current b.deltas, runSum p.current b.deltas⟩ := by
  have hs := hb.small
  have hpos : 0 < b.payload.length := encDeltas_pos hb.ne
  have e1 : pre ++ (b.hdr ++ (b.payload ++ linkBytes l)) ++ post =
      pre ++ putVarint ((b.payload.length + 8 : Nat) : Int) ++ (b.payload ++ linkBytes l ++ post) := by
    simp [Blk.hdr]
  unfold Posts.readNext
  rw [e1, hp]
  rw [readVarintAt_put _ _ _ (by omega) (by omega)]
  simp only [Posts.wrapErr, bind, Except.bind]
  rw [if_neg (by rw [show Posts.bufLen = 530 from rfl]; omega)]
  have e2 : pre ++ putVarint ((b.payload.length + 8 : Nat) : Int) ++ (b.payload ++ linkBytes l ++ post) =
      (pre ++ putVarint ((b.payload.length + 8 : Nat) : Int)) ++ (b.payload ++ linkBytes l) ++ post := by simp
  have hr := readAt_mid (pre ++ putVarint ((b.payload.length + 8 : Nat) : Int)) (b.payload ++ linkBytes l) post
  rw [← e2] at hr
  have hlb := linkBytes_length l
  simp only [List.length_append, hlb, Int.natCast_add] at hr
  have htn : (((b.payload.length + 8 : Nat) : Int)).toNat = b.payload.length + 8 := by omega
  rw [htn]
  simp only [Int.natCast_add] at hr ⊢
  rw [hr]
  simp only []
  have hd := decodeLoop_enc (linkBytes l) hlb b.deltas [] ((b.payload ++ linkBytes l).length + 1) p.current [] hb.ne
    (by
      have h := encDeltas_length_ge b.deltas
      have : b.deltas.length ≤ b.payload.length := h
      simp; omega)
  simp only [List.nil_append, List.length_nil] at hd
  simp only [Blk.payload] at *
  rw [hd]
  simp only [List.drop_left]
  obtain ⟨u, hu, hu2⟩ := getBE64_linkBytes l [] (by omega) hl2
  rw [List.append_nil] at hu
  rw [hu]
  simp [pure, Except.pure, hu2]

/-- the blocks of `o` among the blocks `bs` at offset `off` are in the file, where they should be -/
def Covers (o : Nat) (f : Bytes) : Nat → List Blk → Prop
  | _, [] => True
  | off, b :: bs =>
    (b.owner = o → (f.drop off).take b.size = b.hdr ++ (b.payload ++ linkBytes (nextOff o (off + b.size) bs))) ∧ Covers o f (off + b.size) bs

theorem blk_bytes_length (b : Blk) (l : Int) : (b.hdr ++ (b.payload ++ linkBytes l)).length = b.size := by
  simp [linkBytes_length, Blk.size]; omega

theorem Covers.render (o : Nat) (bs : List Blk) : ∀ pre post : Bytes, Covers o (pre ++ render pre.length bs ++ post) pre.length bs := by
  induction bs with
  | nil => intro pre post; trivial
  | cons b bs ih =>
    intro pre post
    refine ⟨fun hb => ?_, ?_⟩
    · rw [Dupi.render, hb]
      simp only [List.append_assoc, List.drop_left]
      have : b.hdr ++ (b.payload ++ (linkBytes (nextOff o (pre.length + b.size) bs) ++ (Dupi.render (pre.length + b.size) bs ++ post))) =
          (b.hdr ++ (b.payload ++ linkBytes (nextOff o (pre.length + b.size) bs))) ++ (Dupi.render (pre.length + b.size) bs ++ post) := by simp
      rw [this, List.take_left' (blk_bytes_length b _)]
    · have := ih (pre ++ (b.hdr ++ (b.payload ++ linkBytes (nextOff b.owner (pre.length + b.size) bs)))) post
      rw [List.length_append, blk_bytes_length] at this
      simpa [Dupi.render] using this

theorem Covers.append {o : Nat} {f : Bytes} (bs1 : List Blk) : ∀ {off : Nat} {bs2 : List Blk}, Covers o f off (bs1 ++ bs2) → Covers o f (off + sizes bs1) bs2 := by
  induction bs1 with
  | nil => intro off bs2 h; simpa [sizes] using h
  | cons b bs1 ih =>
    intro off bs2 h
    have := ih h.2
    rwa [Nat.add_assoc, ← sizes_cons] at this

/-- the first block of `o` -/
theorem Covers.block {o : Nat} {f : Bytes} {off : Nat} {b : Blk} {bs : List Blk} (h : Covers o f off (b :: bs)) (hb : b.owner = o) :
    ∃ pre post, f = pre ++ (b.hdr ++ (b.payload ++ linkBytes (nextOff o (off + b.size) bs))) ++ post ∧ pre.length = off := by
  have h1 := h.1 hb
  have hl := congrArg List.length h1
  have hpos : 0 < b.size := by unfold Blk.size; omega
  rw [blk_bytes_length, List.length_take, List.length_drop] at hl
  refine ⟨f.take off, f.drop (off + b.size), ?_, by rw [List.length_take]; omega⟩
  rw [← h1, List.append_assoc, ← List.drop_drop, List.take_append_drop, List.take_append_drop]

/-- `p` reads `f` and still has `rem` to deliver -/
def PostsRep (f : Bytes) (p : Posts) (rem : List UInt32) : Prop :=
  ∃ o off bs, Covers o f off bs ∧ (∀ b ∈ bs, b.WF) ∧ off + sizes bs < 2 ^ 63 ∧
    p.nextpos = nextOff o off bs ∧ p.i ≤ p.docids.length ∧
    rem = p.docids.drop p.i ++ runSum p.current (flushed o bs)

theorem nextOff_seek (o : Nat) (bs : List Blk) : ∀ off, nextOff o off bs ≠ -1 →
    ∃ bs1 b bs2, bs = bs1 ++ b :: bs2 ∧ b.owner = o ∧ flushed o bs1 = [] ∧ nextOff o off bs = ((off + sizes bs1 : Nat) : Int) := by
  intro off h
  obtain ⟨bs1, b, bs2, _, h1, h2, h3, h4, _⟩ := seek o bs off h
  exact ⟨bs1, b, bs2, h1, h2, h3, h4⟩

theorem sizes_append (a b : List Blk) : sizes (a ++ b) = sizes a + sizes b := by simp [sizes]

theorem PostsRep.readNext {f : Bytes} {p : Posts} {rem : List UInt32} (h : PostsRep f p rem)
    (hi : p.i = p.docids.length) (hn : p.nextpos ≠ -1) :
    ∃ p', p.readNext f = .ok p' ∧ PostsRep f p' rem ∧ p'.i < p'.docids.length := by
  obtain ⟨o, off, bs, hf, hwf, hlen, hnp, _, hrem⟩ := h
  rw [hnp] at hn
  obtain ⟨bs1, b, bs2, he, ho, hfl, hno⟩ := nextOff_seek o bs _ hn
  have hb : b.WF := hwf b (by simp [he])
  rw [he] at hf
  have hf' := hf.append
  obtain ⟨pre, post, hfe, hpre⟩ := hf'.block ho
  rw [he, sizes_append, sizes_cons] at hlen
  have hl1 : -1 ≤ nextOff o (off + sizes bs1 + b.size) bs2 := by
    rcases nextOff_ge o bs2 (off + sizes bs1 + b.size) with h | h <;> omega
  have hl2 : nextOff o (off + sizes bs1 + b.size) bs2 < 2 ^ 63 := by
    have := nextOff_lt o bs2 (off + sizes bs1 + b.size)
    omega
  have := readNext_block pre post b hb p _ hl1 hl2 (by rw [hnp, hno, hpre])
  rw [← hfe] at this
  refine ⟨_, this, ⟨o, off + sizes bs1 + b.size, bs2, hf'.2, ?_, by omega, rfl, by simp, ?_⟩, ?_⟩
  · intro c hc; exact hwf c (by simp [he, hc])
  · rw [hrem, hi, List.drop_length, List.nil_append, he, flushed_seek ho hfl, runSum_append]; simp
  · simp only [runSum_length]; exact List.length_pos_iff.mpr hb.ne

theorem PostsRep.step {f : Bytes} {p : Posts} {v : UInt32} {rem : List UInt32} (h : PostsRep f p (v :: rem)) :
    ∃ p', p.next f = .ok (v, p') ∧ PostsRep f p' rem := by
  have key : ∀ q : Posts, PostsRep f q (v :: rem) → q.i < q.docids.length →
      q.docids[q.i]? = some v ∧ PostsRep f { q with i := q.i + 1 } rem := by
    intro q hq hlt
    obtain ⟨o, off, bs, hf, hwf, hlen, hnp, _, hrem⟩ := hq
    rw [List.drop_eq_getElem_cons hlt, List.cons_append] at hrem
    injection hrem with h1 h2
    exact ⟨by rw [List.getElem?_eq_getElem hlt, h1], o, off, bs, hf, hwf, hlen, hnp, hlt, h2⟩
  unfold Posts.next
  by_cases hi : p.i = p.docids.length
  · have hn : p.nextpos ≠ -1 := by
      intro hn
      obtain ⟨o, off, bs, _, _, _, hnp, _, hrem⟩ := h
      rw [hn] at hnp
      rw [hi, List.drop_length, nextOff_owner_none _ _ _ hnp.symm] at hrem
      simp [runSum] at hrem
    obtain ⟨q, hq, hrep, hlt⟩ := h.readNext hi hn
    obtain ⟨h1, h2⟩ := key q hrep hlt
    exact ⟨_, by simp [hi, hn, hq, bind, Except.bind, h1, pure, Except.pure], h2⟩
  · have hlt : p.i < p.docids.length := by obtain ⟨_, _, _, _, _, _, _, hle, _⟩ := h; omega
    obtain ⟨h1, h2⟩ := key p h hlt
    exact ⟨_, by simp [hi, bind, Except.bind, h1, pure, Except.pure], h2⟩

theorem PostsRep.eof {f : Bytes} {p : Posts} (h : PostsRep f p []) : p.next f = fail .eof := by
  have hi : p.i = p.docids.length := by
    obtain ⟨o, off, bs, _, _, _, _, hle, hrem⟩ := h
    have := congrArg List.length hrem
    simp at this; omega
  have hn : p.nextpos = -1 := by
    false_or_by_contra
    rename_i hn
    obtain ⟨q, _, ⟨o, off, bs, _, _, _, _, hle, hrem⟩, hlt⟩ := h.readNext hi hn
    have := congrArg List.length hrem
    simp at this; omega
  simp [Posts.next, hi, hn, bind, Except.bind]

theorem PostsRep.new {o : Nat} {bs : List Blk} (hwf : ∀ b ∈ bs, b.WF) (hlen : (render 0 bs).length < 2 ^ 63) :
    PostsRep (render 0 bs) (Posts.new (nextOff o 0 bs)) (runSum 0 (flushed o bs)) :=
  ⟨o, 0, bs, by have := Covers.render o bs [] []; simpa using this, hwf, by rw [render_length] at hlen; omega, rfl,
    by simp [Posts.new], by simp [Posts.new]⟩

/-- walking the chain of blocks to the last link -/
theorem readToLinkLoop_spec (o : Nat) (f : Bytes) (hlen : f.length < 2 ^ 63) : ∀ (k : Nat) (bs : List Blk) (pre : Bytes),
    bs.length ≤ k → f = pre ++ render pre.length bs → (∀ b ∈ bs, b.WF) → nextOff o pre.length bs ≠ -1 →
    Poster.readToLinkLoop f k (nextOff o pre.length bs) = .ok (lastLink o pre.length bs) := by
  intro k
  induction k with
  | zero =>
    intro bs pre hk _ _ hn
    have : bs = [] := List.length_eq_zero_iff.mp (by omega)
    subst this; simp [nextOff] at hn
  | succ k ih =>
    intro bs pre hk hf hwf hn
    obtain ⟨bs1, b, bs2, A, he, ho, hfl, hno, hA, hr⟩ := seek o bs _ hn
    have hb : b.WF := hwf b (by simp [he])
    have hs := hb.small
    have hpos : 0 < b.payload.length := encDeltas_pos hb.ne
    have hll : lastLink o pre.length bs = lastLink o (pre ++ A).length (b :: bs2) := by
      have : ∀ (bs1 : List Blk) (off : Nat) (r : List Blk), lastLink o (off + sizes bs1) r ≠ -1 →
          lastLink o off (bs1 ++ r) = lastLink o (off + sizes bs1) r := by
        intro bs1
        induction bs1 with
        | nil => intro off r _; simp [sizes]
        | cons c bs1 ih =>
          intro off r h
          rw [sizes_cons, ← Nat.add_assoc] at h
          simp only [List.cons_append, lastLink]
          rw [ih _ _ h, if_pos h, sizes_cons, Nat.add_assoc]
      rw [he, List.length_append, hA]
      apply this
      intro h
      have := (lastLink_none _ _ _).mp h
      simp [nextOff, ho] at this
      omega
    have hf' : f = (pre ++ A) ++ render (pre ++ A).length (b :: bs2) := by
      rw [hf, hr, List.length_append, hA, List.append_assoc]
    rw [hll, hno, ← hA, ← List.length_append]
    generalize hpre : pre ++ A = pre' at *
    generalize hl : nextOff b.owner (pre'.length + b.size) bs2 = l at *
    have hl1 : -1 ≤ l := by
      rcases nextOff_ge b.owner bs2 (pre'.length + b.size) with h | h <;> omega
    have hl2 : l < 2 ^ 63 := by
      have := nextOff_lt b.owner bs2 (pre'.length + b.size)
      rw [hf'] at hlen
      simp only [List.length_append, render_length, sizes_cons] at hlen
      omega
    have e1 : f = pre' ++ putVarint ((b.payload.length + 8 : Nat) : Int) ++ (b.payload ++ linkBytes l ++ render (pre'.length + b.size) bs2) := by
      rw [hf']; simp [render, hl, Blk.hdr]
    have e2 : f = (pre' ++ putVarint ((b.payload.length + 8 : Nat) : Int)) ++ (b.payload ++ linkBytes l) ++ render (pre'.length + b.size) bs2 := by
      rw [e1]; simp
    have hv := readVarintAt_put pre' (b.payload ++ linkBytes l ++ render (pre'.length + b.size) bs2) ((b.payload.length + 8 : Nat) : Int) (by omega) (by omega)
    rw [← e1] at hv
    have hra := readAt_mid (pre' ++ putVarint ((b.payload.length + 8 : Nat) : Int)) (b.payload ++ linkBytes l) (render (pre'.length + b.size) bs2)
    rw [← e2] at hra
    have hlb := linkBytes_length l
    simp only [List.length_append, hlb, Int.natCast_add] at hra
    simp only [Poster.readToLinkLoop, hv, bind, Except.bind]
    have htn : (((b.payload.length + 8 : Nat) : Int)).toNat = b.payload.length + 8 := by omega
    rw [if_neg (by omega), if_neg (by omega), htn]
    simp only [Int.natCast_add] at hra ⊢
    rw [hra]
    have hsl : slice (b.payload ++ linkBytes l) (b.payload.length + 8 - 8) (b.payload.length + 8) = .ok (linkBytes l) := by
      unfold slice
      rw [if_pos (by simp [hlb])]
      simp [← hlb]
    simp only [hsl]
    obtain ⟨u, hu, hu2⟩ := getBE64_linkBytes l [] (by omega) hl2
    rw [List.append_nil] at hu
    simp only [hu, hu2]
    rw [ho] at hl
    by_cases hm : l = -1
    · rw [if_pos hm]
      have hz : lastLink o (pre'.length + b.size) bs2 = -1 := (lastLink_none _ _ _).mpr (by rw [hl, hm])
      simp only [lastLink, hz, ho, ne_eq, not_true, if_false, if_true, pure, Except.pure]
      congr 1
      simp [Blk.size, Blk.hdr]; omega
    · rw [if_neg hm]
      have hz : lastLink o (pre'.length + b.size) bs2 ≠ -1 := fun h => hm (by rw [← hl]; exact (lastLink_none _ _ _).mp h)
      have e3 : f = (pre' ++ (b.hdr ++ (b.payload ++ linkBytes l))) ++ render (pre' ++ (b.hdr ++ (b.payload ++ linkBytes l))).length bs2 := by
        have : (pre' ++ (b.hdr ++ (b.payload ++ linkBytes l))).length = pre'.length + b.size := by
          simp [linkBytes_length, Blk.size]; omega
        rw [this, hf']
        simp [render, ho, hl]
      have e4 : (pre' ++ (b.hdr ++ (b.payload ++ linkBytes l))).length = pre'.length + b.size := by
          simp [linkBytes_length, Blk.size]; omega
      have := ih bs2 _ (by rw [he] at hk; simp at hk; omega) e3 (fun c hc => hwf c (by simp [he, hc]))
        (by rw [e4, hl]; exact hm)
      rw [e4, hl] at this
      rw [this]
      simp only [lastLink]
      rw [if_pos hz]

end Dupi
