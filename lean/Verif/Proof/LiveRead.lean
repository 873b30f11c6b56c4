import Verif.Model.Live
import Verif.Proof.CrashLink
/-! # Reading posting files that change between the reads -/

namespace Dupi

/-! ### Single reads -/

theorem readAt_cases (f : Bytes) (off : Int) (n : Nat) : (∃ bs, readAt f off n = .ok bs) ∨ ∃ e, readAt f off n = fail e := by
  unfold readAt
  split
  · exact .inr ⟨_, rfl⟩
  · split
    · exact .inl ⟨_, rfl⟩
    · split
      · exact .inl ⟨_, rfl⟩
      · exact .inr ⟨_, rfl⟩

/-- what can be read does not change when a file gets longer -/
theorem readAt_mono {f g : Bytes} (h : f <+: g) {off : Int} {n : Nat} {bs : Bytes} (hr : readAt f off n = .ok bs) : readAt g off n = .ok bs := by
  obtain ⟨r, rfl⟩ := h
  unfold readAt at hr ⊢
  split at hr
  · simp [fail] at hr
  · rename_i h0
    rw [if_neg h0]
    split at hr
    · rename_i h1; rw [if_pos h1]; exact hr
    · rename_i h1
      rw [if_neg h1]
      split at hr
      · rename_i h2
        rw [if_pos (by simp; omega)]
        rw [← hr]
        congr 1
        rw [List.drop_append_of_le_length (by omega), List.take_append_of_le_length (by rw [List.length_drop]; omega)]
      · simp [fail] at hr

theorem readAt_short {f : Bytes} {off : Int} {n : Nat} (hn : 0 < n) (h : (f.length : Int) ≤ off) : ∃ e, readAt f off n = fail e := by
  unfold readAt
  split
  · exact ⟨_, rfl⟩
  · rw [if_neg (by omega), if_neg (by omega)]
    exact ⟨_, rfl⟩

/-- reading inside a known part -/
theorem readAt_inside (pre a post : Bytes) {k n : Nat} (hn : 0 < n) (h : k + n ≤ a.length) :
    readAt (pre ++ a ++ post) (pre.length + k : Nat) n = .ok ((a.drop k).take n) := by
  unfold readAt
  rw [if_neg (by omega), if_neg (by omega), Int.toNat_natCast, if_pos (by simp; omega)]
  congr 1
  rw [List.append_assoc, ← List.drop_drop, List.drop_left, List.drop_append_of_le_length (by omega), List.take_append_of_le_length (by rw [List.length_drop]; omega)]

/-! ### Varints -/

theorem readVarintAtLoopL_of {fs : Nat → Bytes} {g : Bytes} {p : Int} (h : ∀ (k : Nat) b, readAt g (p + k) 1 = .ok b → readAt (fs k) (p + k) 1 = .ok b) :
    ∀ (fuel : Nat) (acc r : Bytes), readVarintAtLoop g p fuel acc = .ok r → readVarintAtLoopL fs p fuel acc = .ok r := by
  intro fuel
  induction fuel with
  | zero => intro acc r hr; simp [readVarintAtLoop, fail] at hr
  | succ fuel ih =>
    intro acc r hr
    simp only [readVarintAtLoop, bind, Except.bind, pure, Except.pure] at hr
    cases hb : readAt g (p + acc.length) 1 with
    | error e => simp [hb] at hr
    | ok b =>
      simp only [hb] at hr
      simp only [readVarintAtLoopL, h _ _ hb, bind, Except.bind, pure, Except.pure]
      split at hr
      · rename_i h1; rw [if_pos h1]; exact hr
      · rename_i h1; rw [if_neg h1]; exact ih _ _ hr

theorem readVarintAtLoopL_or {fs : Nat → Bytes} {g : Bytes} {p : Int}
    (h : ∀ (k : Nat) b b', readAt g (p + k) 1 = .ok b → readAt (fs k) (p + k) 1 = .ok b' → b' = b) :
    ∀ (fuel : Nat) (acc r : Bytes), readVarintAtLoop g p fuel acc = .ok r →
      readVarintAtLoopL fs p fuel acc = .ok r ∨ ∃ e, readVarintAtLoopL fs p fuel acc = fail e := by
  intro fuel
  induction fuel with
  | zero => intro acc r hr; simp [readVarintAtLoop, fail] at hr
  | succ fuel ih =>
    intro acc r hr
    simp only [readVarintAtLoop, bind, Except.bind, pure, Except.pure] at hr
    cases hb : readAt g (p + acc.length) 1 with
    | error e => simp [hb] at hr
    | ok b =>
      simp only [hb] at hr
      rcases readAt_cases (fs acc.length) (p + acc.length) 1 with ⟨b', hb'⟩ | ⟨e, he⟩
      · have := h _ _ _ hb hb'
        subst this
        simp only [readVarintAtLoopL, hb', bind, Except.bind, pure, Except.pure]
        split at hr
        · rename_i h1; rw [if_pos h1]; exact .inl hr
        · rename_i h1; rw [if_neg h1]; exact ih _ _ hr
      · exact .inr ⟨e, by simp only [readVarintAtLoopL, he, bind, Except.bind, fail]⟩

theorem readVarintAt_inv {g : Bytes} {p : Int} {v : Int} {n : Nat} (h : readVarintAt g p = .ok (v, n)) :
    ∃ bs, readVarintAtLoop g p maxVarintLen64 [] = .ok bs ∧ (do
      let (v, m) := varint bs
      if m ≤ 0 then fail (.msg "binary.Varint") else return (v, bs.length) : M (Int × Nat)) = .ok (v, n) := by
  unfold readVarintAt at h
  cases hb : readVarintAtLoop g p maxVarintLen64 [] with
  | error e => simp [hb, bind, Except.bind] at h
  | ok bs => exact ⟨bs, rfl, by simpa [hb, bind, Except.bind] using h⟩

theorem readVarintAtL_of {fs : Nat → Bytes} {g : Bytes} {p : Int} (h : ∀ (k : Nat) b, readAt g (p + k) 1 = .ok b → readAt (fs k) (p + k) 1 = .ok b)
    {r : Int × Nat} (hr : readVarintAt g p = .ok r) : readVarintAtL fs p = .ok r := by
  obtain ⟨v, n⟩ := r
  obtain ⟨bs, h1, h2⟩ := readVarintAt_inv hr
  simp only [readVarintAtL, readVarintAtLoopL_of h _ _ _ h1, bind, Except.bind]
  simpa [bind, Except.bind] using h2

theorem readVarintAtL_or {fs : Nat → Bytes} {g : Bytes} {p : Int}
    (h : ∀ (k : Nat) b b', readAt g (p + k) 1 = .ok b → readAt (fs k) (p + k) 1 = .ok b' → b' = b)
    {r : Int × Nat} (hr : readVarintAt g p = .ok r) : readVarintAtL fs p = .ok r ∨ ∃ e, readVarintAtL fs p = fail e := by
  obtain ⟨v, n⟩ := r
  obtain ⟨bs, h1, h2⟩ := readVarintAt_inv hr
  rcases readVarintAtLoopL_or h _ _ _ h1 with h3 | ⟨e, h3⟩
  · left
    simp only [readVarintAtL, h3, bind, Except.bind]
    simpa [bind, Except.bind] using h2
  · exact .inr ⟨e, by simp only [readVarintAtL, h3, bind, Except.bind, fail]⟩

/-! ### Blocks -/

theorem pad_length (n : Nat) : (List.replicate n (0 : UInt8)).length = n := by simp

/-- reading a block whose header and body are read at different moments -/
theorem readNextL_block {p : Posts} {fs : Nat → Bytes} {b : Blk} (hb : b.WF) {l : Int} (hl1 : -1 ≤ l) (hl2 : l < 2 ^ 63) {pos : Nat} (hp : p.nextpos = (pos : Int))
    (h1 : readVarintAtL fs pos = .ok (((b.payload.length + 8 : Nat) : Int), b.hdr.length))
    (h2 : readAt (fs 10) ((pos + b.hdr.length : Nat) : Int) (b.payload.length + 8) = .ok (b.payload ++ linkBytes l)) :
    p.readNextL fs = .ok ⟨0, l, sumFrom p.current b.deltas, runSum p.current b.deltas⟩ := by
  have key := readNext_block (List.replicate pos 0) [] b hb p l hl1 hl2 (by rw [pad_length]; exact hp)
  have hs := hb.small
  have e1 : List.replicate pos 0 ++ (b.hdr ++ (b.payload ++ linkBytes l)) ++ [] =
      List.replicate pos (0 : UInt8) ++ putVarint ((b.payload.length + 8 : Nat) : Int) ++ (b.payload ++ linkBytes l ++ []) := by
    simp [Blk.hdr]
  have k1 : readVarintAt (List.replicate pos 0 ++ (b.hdr ++ (b.payload ++ linkBytes l)) ++ []) (pos : Int) =
      .ok (((b.payload.length + 8 : Nat) : Int), b.hdr.length) := by
    have := readVarintAt_put (List.replicate pos 0) (b.payload ++ linkBytes l ++ []) ((b.payload.length + 8 : Nat) : Int) (by omega) (by omega)
    rw [← e1, pad_length] at this
    exact this
  have k2 : readAt (List.replicate pos 0 ++ (b.hdr ++ (b.payload ++ linkBytes l)) ++ []) ((pos + b.hdr.length : Nat) : Int) (b.payload.length + 8) = .ok (b.payload ++ linkBytes l) := by
    have := readAt_mid (List.replicate pos 0 ++ b.hdr) (b.payload ++ linkBytes l) []
    rw [List.length_append, pad_length, List.length_append, linkBytes_length] at this
    rw [← this]; simp
  unfold Posts.readNext at key
  unfold Posts.readNextL
  rw [hp] at key ⊢
  rw [k1] at key
  rw [h1]
  have e2 : (pos : Int) + (b.hdr.length : Nat) = ((pos + b.hdr.length : Nat) : Int) := by omega
  simp only [Posts.wrapErr, bind, Except.bind, e2, Int.toNat_natCast, k2] at key
  simp only [Posts.wrapErr, bind, Except.bind, e2, Int.toNat_natCast, h2]
  exact key

/-! ### Files in which the blocks of a bucket do not change -/

/-- `p` still has `rem` to deliver from the blocks `bs` at offset `off` -/
def Left (o off : Nat) (bs : List Blk) (p : Posts) (rem : List UInt32) : Prop :=
  (∀ b ∈ bs, b.WF) ∧ off + sizes bs < 2 ^ 63 ∧ p.nextpos = nextOff o off bs ∧ p.i ≤ p.docids.length ∧
    rem = p.docids.drop p.i ++ runSum p.current (flushed o bs)

theorem Left.readNextL {o off : Nat} {bs : List Blk} {p : Posts} {rem : List UInt32} (h : Left o off bs p rem) {fs : Nat → Bytes}
    (hc : ∀ k, Covers o (fs k) off bs) (hi : p.i = p.docids.length) (hn : p.nextpos ≠ -1) :
    ∃ p' off' bs', p.readNextL fs = .ok p' ∧ Left o off' bs' p' rem ∧ p'.i < p'.docids.length ∧ ∀ f, Covers o f off bs → Covers o f off' bs' := by
  obtain ⟨hwf, hlen, hnp, _, hrem⟩ := h
  rw [hnp] at hn
  obtain ⟨bs1, b, bs2, he, ho, hfl, hno⟩ := nextOff_seek o bs _ hn
  have hb : b.WF := hwf b (by simp [he])
  rw [he, sizes_append, sizes_cons] at hlen
  have hl1 : -1 ≤ nextOff o (off + sizes bs1 + b.size) bs2 := by
    rcases nextOff_ge o bs2 (off + sizes bs1 + b.size) with h | h <;> omega
  have hl2 : nextOff o (off + sizes bs1 + b.size) bs2 < 2 ^ 63 := by
    have := nextOff_lt o bs2 (off + sizes bs1 + b.size)
    omega
  have hblk : ∀ f, Covers o f off bs → ∃ pre post, f = pre ++ (b.hdr ++ (b.payload ++ linkBytes (nextOff o (off + sizes bs1 + b.size) bs2))) ++ post ∧
      pre.length = off + sizes bs1 := by
    intro f hf
    rw [he] at hf
    exact hf.append.block ho
  have hs := hb.small
  have g1 : readVarintAtL fs ((off + sizes bs1 : Nat) : Int) = .ok (((b.payload.length + 8 : Nat) : Int), b.hdr.length) := by
    have hp := readVarintAt_put (List.replicate (off + sizes bs1) 0) [] ((b.payload.length + 8 : Nat) : Int) (by omega) (by omega)
    rw [pad_length] at hp
    refine readVarintAtL_of (fun k b' hk => ?_) hp
    rw [show ((off + sizes bs1 : Nat) : Int) + (k : Int) = ((off + sizes bs1 + k : Nat) : Int) by omega] at hk ⊢
    have hlt : k + 1 ≤ b.hdr.length := by
      false_or_by_contra
      obtain ⟨e, he⟩ := readAt_short (f := List.replicate (off + sizes bs1) 0 ++ putVarint ((b.payload.length + 8 : Nat) : Int) ++ [])
        (off := ((off + sizes bs1 + k : Nat) : Int)) (n := 1) (by omega) (by
          rw [List.append_nil, List.length_append, pad_length]
          have : (putVarint ((b.payload.length + 8 : Nat) : Int)).length = b.hdr.length := rfl
          omega)
      rw [hk] at he
      simp [fail] at he
    have r1 := readAt_inside (List.replicate (off + sizes bs1) 0) b.hdr [] (by omega) hlt
    rw [pad_length] at r1
    have r1' : readAt (List.replicate (off + sizes bs1) 0 ++ putVarint ((b.payload.length + 8 : Nat) : Int) ++ []) ((off + sizes bs1 + k : Nat) : Int) 1 = .ok ((b.hdr.drop k).take 1) := r1
    rw [hk] at r1'
    injection r1' with r1'
    obtain ⟨pre, post, hf, hpre⟩ := hblk _ (hc k)
    have r2 := readAt_inside pre b.hdr (b.payload ++ linkBytes (nextOff o (off + sizes bs1 + b.size) bs2) ++ post) (by omega) hlt
    rw [hpre] at r2
    rw [hf, r1', ← r2]
    simp
  have g2 : readAt (fs 10) ((off + sizes bs1 + b.hdr.length : Nat) : Int) (b.payload.length + 8) = .ok (b.payload ++ linkBytes (nextOff o (off + sizes bs1 + b.size) bs2)) := by
    obtain ⟨pre, post, hf, hpre⟩ := hblk _ (hc 10)
    have := readAt_mid (pre ++ b.hdr) (b.payload ++ linkBytes (nextOff o (off + sizes bs1 + b.size) bs2)) post
    rw [List.length_append, hpre, List.length_append, linkBytes_length] at this
    rw [hf, ← this]; simp
  have := readNextL_block hb hl1 hl2 (p := p) (by rw [hnp, hno]) g1 g2
  refine ⟨_, off + sizes bs1 + b.size, bs2, this, ⟨fun c hc => hwf c (by simp [he, hc]), by omega, rfl, by simp, ?_⟩, ?_, fun f hf => ?_⟩
  · rw [hrem, hi, List.drop_length, List.nil_append, he, flushed_seek ho hfl, runSum_append]; simp
  · simp only [runSum_length]; exact List.length_pos_iff.mpr hb.ne
  · rw [he] at hf
    exact hf.append.2

theorem Left.step {o off : Nat} {bs : List Blk} {p : Posts} {v : UInt32} {rem : List UInt32} (h : Left o off bs p (v :: rem)) {fs : Nat → Bytes}
    (hc : ∀ k, Covers o (fs k) off bs) :
    ∃ p' off' bs', p.nextL fs = .ok (v, p') ∧ Left o off' bs' p' rem ∧ ∀ f, Covers o f off bs → Covers o f off' bs' := by
  have key : ∀ {off : Nat} {bs : List Blk} (q : Posts), Left o off bs q (v :: rem) → q.i < q.docids.length →
      q.docids[q.i]? = some v ∧ Left o off bs { q with i := q.i + 1 } rem := by
    intro off bs q hq hlt
    obtain ⟨h1, h2, h3, _, hrem⟩ := hq
    rw [List.drop_eq_getElem_cons hlt, List.cons_append] at hrem
    injection hrem with g1 g2
    exact ⟨by rw [List.getElem?_eq_getElem hlt, g1], h1, h2, h3, hlt, g2⟩
  unfold Posts.nextL
  by_cases hi : p.i = p.docids.length
  · have hn : p.nextpos ≠ -1 := by
      intro hn
      obtain ⟨_, _, hnp, _, hrem⟩ := h
      rw [hn] at hnp
      rw [hi, List.drop_length, nextOff_owner_none _ _ _ hnp.symm] at hrem
      simp [runSum] at hrem
    obtain ⟨q, off', bs', hq, hrep, hlt, hcov⟩ := h.readNextL hc hi hn
    obtain ⟨h1, h2⟩ := key q hrep hlt
    exact ⟨_, off', bs', by simp [hi, hn, hq, bind, Except.bind, h1, pure, Except.pure], h2, hcov⟩
  · have hlt : p.i < p.docids.length := by obtain ⟨_, _, _, hle, _⟩ := h; omega
    obtain ⟨h1, h2⟩ := key p h hlt
    exact ⟨_, off, bs, by simp [hi, bind, Except.bind, h1, pure, Except.pure], h2, fun _ h => h⟩

theorem Left.eof {o off : Nat} {bs : List Blk} {p : Posts} (h : Left o off bs p []) (fs : Nat → Bytes) : p.nextL fs = fail .eof := by
  obtain ⟨hwf, _, hnp, hle, hrem⟩ := h
  have hl := congrArg List.length hrem
  simp only [List.length_nil, List.length_append, List.length_drop, runSum_length] at hl
  have hi : p.i = p.docids.length := by omega
  have hn : p.nextpos = -1 := by
    false_or_by_contra
    rename_i hn
    rw [hnp] at hn
    obtain ⟨bs1, b, bs2, he, ho, hfl, hno⟩ := nextOff_seek o bs _ hn
    rw [he, flushed_seek ho hfl, List.length_append] at hl
    have := List.length_pos_iff.mpr (hwf b (by simp [he])).ne
    omega
  simp [Posts.nextL, hi, hn, bind, Except.bind]

/-! ### Files that are on their way from some blocks to more of them -/

/-- `f` can be found while the blocks `bs` are extended to `bs'` -/
def Growing (bs bs' : List Blk) (f : Bytes) : Prop := ∃ B, bs <+: B ∧ B <+: bs' ∧ f <+: render 0 B

/-- the bytes of a block of `bs'` in a file on its way -/
theorem Growing.block {bs bs' : List Blk} {f : Bytes} (h : Growing bs bs' f) {a : List Blk} {b : Blk} {c : List Blk} (he : bs' = a ++ b :: c) :
    f.length ≤ sizes a ∨ ∃ r r' : List Blk, c = r ++ r' ∧ bs <+: a ++ b :: r ∧
      ∃ pre post, f <+: pre ++ (b.hdr ++ (b.payload ++ linkBytes (nextOff b.owner (sizes a + b.size) r))) ++ post ∧ pre.length = sizes a := by
  obtain ⟨B, h1, h2, h3⟩ := h
  by_cases hl : B.length ≤ a.length
  · left
    have hBa : B <+: a := List.prefix_of_prefix_length_le h2 (by rw [he]; exact List.prefix_append _ _) hl
    obtain ⟨t, rfl⟩ := hBa
    have := h3.length_le
    rw [render_length] at this
    rw [sizes_append]; omega
  · right
    have haB : a ++ [b] <+: B := List.prefix_of_prefix_length_le (l₃ := bs') (by rw [he]; exact ⟨c, by simp⟩) h2 (by simp; omega)
    obtain ⟨r, rfl⟩ := haB
    obtain ⟨r', h2⟩ := h2
    refine ⟨r, r', ?_, by simpa using h1, ?_⟩
    · rw [he] at h2; simpa using h2.symm
    · have hc := Covers.render b.owner (a ++ b :: r) [] []
      simp only [List.nil_append, List.append_nil, List.length_nil] at hc
      have hc' := hc.append
      obtain ⟨pre, post, e, hp⟩ := hc'.block rfl
      rw [Nat.zero_add] at e hp
      refine ⟨pre, post, ?_, hp⟩
      rw [← e]; simpa using h3

/-- `p` is reading the bucket `o` of a file on its way from `bs` to `bs'`; `rem` is what is still to come of the
documents of `bs'`, `need` the number of those that belong to `bs` -/
def Chase (o : Nat) (bs bs' : List Blk) (p : Posts) (rem : List UInt32) (need : Nat) : Prop :=
  ∃ pre r r', bs' = pre ++ r ++ r' ∧ bs <+: pre ++ r ∧ p.nextpos = nextOff o (sizes pre) r ∧ p.i ≤ p.docids.length ∧
    rem = p.docids.drop p.i ++ runSum p.current (flushed o (r ++ r')) ∧
    need ≤ (p.docids.drop p.i).length + (flushed o (bs.drop pre.length)).length

theorem wrapErr_ne_eof {α : Type} (s : String) (x : M α) : Posts.wrapErr s x ≠ .error (.err .eof) := by
  unfold Posts.wrapErr
  split
  · simp
  · rename_i h; intro e; exact h _ e

theorem decodeLoop_ne_eof (buf : Bytes) : ∀ (fuel i : Nat) (c : UInt32) (ds : List UInt32), Posts.decodeLoop buf fuel i c ds ≠ .error (.err .eof) := by
  intro fuel
  induction fuel with
  | zero => intro i c ds; simp [Posts.decodeLoop]
  | succ fuel ih =>
    intro i c ds
    rw [Posts.decodeLoop]
    simp only
    split
    · simp [fail]
    · split
      · simp [fail]
      · split
        · simp [fail]
        · split
          · simp
          · exact ih _ _ _

theorem readNextL_ne_eof (p : Posts) (fs : Nat → Bytes) : p.readNextL fs ≠ .error (.err .eof) := by
  unfold Posts.readNextL
  simp only [bind, Except.bind, pure, Except.pure]
  split
  · rename_i e he; intro h; injection h with h; exact wrapErr_ne_eof _ _ (h ▸ he)
  · split
    · simp [panic']
    · split
      · rename_i e he; intro h; injection h with h; exact wrapErr_ne_eof _ _ (h ▸ he)
      · split
        · rename_i e he; intro h; injection h with h; exact decodeLoop_ne_eof _ _ _ _ _ (h ▸ he)
        · split
          · rename_i e he; intro h; injection h with h
            unfold getBE64 at he
            split at he
            · simp at he
            · simp only [panic', Except.error.injEq] at he; rw [← he] at h; cases h
          · simp

theorem drop_prefix {α : Type} {a b : List α} (h : a <+: b) (n : Nat) : a.drop n <+: b.drop n := by
  obtain ⟨c, rfl⟩ := h
  rw [List.drop_append]
  exact List.prefix_append _ _

theorem take_prefix {α : Type} {a b : List α} (h : a <+: b) (n : Nat) : a.take n <+: b.take n := by
  obtain ⟨c, rfl⟩ := h
  rw [List.take_append]
  exact List.prefix_append _ _

theorem flushed_prefix_length {o : Nat} {a b : List Blk} (h : a <+: b) : (flushed o a).length ≤ (flushed o b).length := by
  obtain ⟨c, rfl⟩ := h
  simp [flushed]

theorem readNextL_error {p : Posts} {fs : Nat → Bytes} {e : Fault} (h : p.readNextL fs = .error e) : e ≠ .err .eof :=
  fun he => readNextL_ne_eof p fs (he ▸ h)

/-- a block that may or may not be there yet -/
theorem Chase.readNextL {o : Nat} {bs bs' : List Blk} {p : Posts} {rem : List UInt32} {need : Nat} (h : Chase o bs bs' p rem need)
    (hwf : ∀ b ∈ bs', b.WF) (hlen : sizes bs' < 2 ^ 63) {fs : Nat → Bytes} (hg : ∀ k, Growing bs bs' (fs k)) (hi : p.i = p.docids.length) (hn : p.nextpos ≠ -1) :
    (∃ e, p.readNextL fs = fail e ∧ e ≠ .eof) ∨ ∃ p', p.readNextL fs = .ok p' ∧ Chase o bs bs' p' rem need ∧ p'.i < p'.docids.length := by
  have hne : ∀ e, p.readNextL fs = fail e → e ≠ .eof := fun e he h => readNextL_error he (by rw [h])
  obtain ⟨pre, r, r', he, hpre, hnp, _, hrem, hneed⟩ := h
  rw [hnp] at hn
  obtain ⟨r1, b, r2, hr, ho, hfl, hno⟩ := nextOff_seek o r _ hn
  have he' : bs' = (pre ++ r1) ++ b :: (r2 ++ r') := by rw [he, hr]; simp
  have hb : b.WF := hwf b (by simp [he'])
  have hs := hb.small
  rw [he', sizes_append, sizes_cons] at hlen
  have hpos : p.nextpos = ((sizes (pre ++ r1) : Nat) : Int) := by rw [hnp, hno, sizes_append]
  -- the header
  have g1 : readVarintAtL fs ((sizes (pre ++ r1) : Nat) : Int) = .ok (((b.payload.length + 8 : Nat) : Int), b.hdr.length) ∨
      ∃ e, readVarintAtL fs ((sizes (pre ++ r1) : Nat) : Int) = fail e := by
    have hp := readVarintAt_put (List.replicate (sizes (pre ++ r1)) 0) [] ((b.payload.length + 8 : Nat) : Int) (by omega) (by omega)
    rw [pad_length] at hp
    refine readVarintAtL_or (fun k b1 b2 hk hk' => ?_) hp
    rw [show ((sizes (pre ++ r1) : Nat) : Int) + (k : Int) = ((sizes (pre ++ r1) + k : Nat) : Int) by omega] at hk hk'
    have hlt : k + 1 ≤ b.hdr.length := by
      false_or_by_contra
      obtain ⟨e, he⟩ := readAt_short (f := List.replicate (sizes (pre ++ r1)) 0 ++ putVarint ((b.payload.length + 8 : Nat) : Int) ++ [])
        (off := ((sizes (pre ++ r1) + k : Nat) : Int)) (n := 1) (by omega) (by
          rw [List.append_nil, List.length_append, pad_length]
          have : (putVarint ((b.payload.length + 8 : Nat) : Int)).length = b.hdr.length := rfl
          omega)
      rw [hk] at he
      simp [fail] at he
    have r1' := readAt_inside (List.replicate (sizes (pre ++ r1)) 0) b.hdr [] (by omega) hlt
    rw [pad_length] at r1'
    have r1'' : readAt (List.replicate (sizes (pre ++ r1)) 0 ++ putVarint ((b.payload.length + 8 : Nat) : Int) ++ []) ((sizes (pre ++ r1) + k : Nat) : Int) 1 = .ok ((b.hdr.drop k).take 1) := r1'
    rw [hk] at r1''
    injection r1'' with r1''
    rcases (hg k).block he' with hsh | ⟨s, s', _, _, pr, po, hpf, hpl⟩
    · obtain ⟨e, he⟩ := readAt_short (f := fs k) (off := ((sizes (pre ++ r1) + k : Nat) : Int)) (n := 1) (by omega) (by omega)
      rw [hk'] at he
      simp [fail] at he
    · have hm := readAt_mono hpf hk'
      have r2' := readAt_inside pr b.hdr (b.payload ++ linkBytes (nextOff b.owner (sizes (pre ++ r1) + b.size) s) ++ po) (by omega) hlt
      rw [hpl] at r2'
      rw [show pr ++ b.hdr ++ (b.payload ++ linkBytes (nextOff b.owner (sizes (pre ++ r1) + b.size) s) ++ po) =
        pr ++ (b.hdr ++ (b.payload ++ linkBytes (nextOff b.owner (sizes (pre ++ r1) + b.size) s))) ++ po by simp, hm] at r2'
      injection r2' with r2'
      rw [r1'', r2']
  rcases g1.symm with ⟨e, g1⟩ | g1
  · have : p.readNextL fs = fail (.wrap "1" e) := by
      unfold Posts.readNextL
      rw [hpos, g1]
      simp [Posts.wrapErr, bind, Except.bind, fail]
    exact .inl ⟨_, this, hne _ this⟩
  -- the block
  have e2 : ((sizes (pre ++ r1) : Nat) : Int) + (b.hdr.length : Nat) = ((sizes (pre ++ r1) + b.hdr.length : Nat) : Int) := by omega
  rcases (readAt_cases (fs 10) ((sizes (pre ++ r1) + b.hdr.length : Nat) : Int) (b.payload.length + 8)).symm with ⟨e, hx⟩ | ⟨x, hx⟩
  · have : p.readNextL fs = fail (.wrap "2" e) := by
      unfold Posts.readNextL
      rw [hpos, g1]
      simp only [Posts.wrapErr, bind, Except.bind, e2, Int.toNat_natCast, hx, fail]
      rw [if_neg]
      have : Posts.bufLen = 530 := rfl
      omega
    exact .inl ⟨_, this, hne _ this⟩
  rcases (hg 10).block he' with hsh | ⟨s, s', hs1, hs2, pr, po, hpf, hpl⟩
  · obtain ⟨e, he⟩ := readAt_short (f := fs 10) (off := ((sizes (pre ++ r1) + b.hdr.length : Nat) : Int)) (n := b.payload.length + 8) (by omega) (by omega)
    rw [hx] at he
    simp [fail] at he
  have hm := readAt_mono hpf hx
  have hmid := readAt_mid (pr ++ b.hdr) (b.payload ++ linkBytes (nextOff b.owner (sizes (pre ++ r1) + b.size) s)) po
  rw [List.length_append, hpl, List.length_append, linkBytes_length] at hmid
  rw [show pr ++ b.hdr ++ (b.payload ++ linkBytes (nextOff b.owner (sizes (pre ++ r1) + b.size) s)) ++ po =
    pr ++ (b.hdr ++ (b.payload ++ linkBytes (nextOff b.owner (sizes (pre ++ r1) + b.size) s))) ++ po by simp, hm] at hmid
  injection hmid with hmid
  subst hmid
  have hl1 : -1 ≤ nextOff b.owner (sizes (pre ++ r1) + b.size) s := by
    rcases nextOff_ge b.owner s (sizes (pre ++ r1) + b.size) with h | h <;> omega
  have hl2 : nextOff b.owner (sizes (pre ++ r1) + b.size) s < 2 ^ 63 := by
    have := nextOff_lt b.owner s (sizes (pre ++ r1) + b.size)
    rw [hs1, sizes_append s s'] at hlen
    omega
  have key := readNextL_block hb hl1 hl2 (p := p) hpos g1 hx
  refine .inr ⟨_, key, ⟨pre ++ r1 ++ [b], s, s', by rw [he', hs1]; simp, by simpa using hs2, ?_, by simp, ?_, ?_⟩, ?_⟩
  · simp only [ho]
    rw [sizes_append _ [b], sizes_cons]
    simp [sizes]
  · rw [hrem, hi, List.drop_length, List.nil_append, hr, List.append_assoc, List.cons_append, flushed_seek ho hfl, runSum_append, hs1]
    simp
  · simp only [List.drop_zero, runSum_length]
    rw [hi, List.drop_length, List.length_nil, Nat.zero_add] at hneed
    refine Nat.le_trans hneed ?_
    have hX : bs.drop pre.length <+: r1 ++ b :: r2 := by
      rw [hr] at hpre
      have := drop_prefix hpre pre.length
      rwa [List.drop_left] at this
    rw [← List.take_append_drop (r1.length + 1) (bs.drop pre.length), flushed_length_append, List.drop_drop]
    have h1 : ((bs.drop pre.length).take (r1.length + 1)) <+: r1 ++ [b] := by
      have := take_prefix hX (r1.length + 1)
      rw [show (r1 ++ b :: r2).take (r1.length + 1) = r1 ++ [b] by
        rw [show r1 ++ b :: r2 = (r1 ++ [b]) ++ r2 by simp, List.take_left' (by simp)]] at this
      exact this
    have h2 := flushed_prefix_length (o := o) h1
    rw [flushed_seek ho hfl] at h2
    simp only [List.length_append, flushed, List.filter_nil, List.flatMap_nil, List.length_nil] at h2 ⊢
    rw [show pre.length + (r1.length + 1) = pre.length + r1.length + [b].length by simp; omega]
    omega
  · simp only [runSum_length]; exact List.length_pos_iff.mpr hb.ne

/-- a step of a reader, while blocks are added -/
theorem Chase.next {o : Nat} {bs bs' : List Blk} {p : Posts} {rem : List UInt32} {need : Nat} (h : Chase o bs bs' p rem need)
    (hwf : ∀ b ∈ bs', b.WF) (hlen : sizes bs' < 2 ^ 63) {fs : Nat → Bytes} (hg : ∀ k, Growing bs bs' (fs k)) :
    (p.nextL fs = fail .eof ∧ need = 0) ∨ (∃ e, p.nextL fs = fail e ∧ e ≠ .eof) ∨
      ∃ v rem' p', rem = v :: rem' ∧ p.nextL fs = .ok (v, p') ∧ Chase o bs bs' p' rem' (need - 1) := by
  have key : ∀ (q : Posts), Chase o bs bs' q rem need → q.i < q.docids.length → ∃ v rem', rem = v :: rem' ∧
      q.docids[q.i]? = some v ∧ Chase o bs bs' { q with i := q.i + 1 } rem' (need - 1) := by
    intro q hq hlt
    obtain ⟨pre, r, r', h1, h2, h3, _, hrem, hneed⟩ := hq
    rw [List.drop_eq_getElem_cons hlt] at hrem hneed
    rw [List.cons_append] at hrem
    refine ⟨_, _, hrem, List.getElem?_eq_getElem hlt, pre, r, r', h1, h2, h3, hlt, rfl, ?_⟩
    rw [List.length_cons] at hneed
    simp only
    omega
  by_cases hi : p.i = p.docids.length
  · by_cases hn : p.nextpos = -1
    · left
      refine ⟨by simp [Posts.nextL, hi, hn, bind, Except.bind], ?_⟩
      obtain ⟨pre, r, r', h1, h2, h3, _, _, hneed⟩ := h
      rw [hn] at h3
      have h4 := nextOff_owner_none _ _ _ h3.symm
      have h5 := drop_prefix h2 pre.length
      rw [List.drop_left] at h5
      have h6 := flushed_prefix_length (o := o) h5
      rw [h4] at h6
      rw [hi, List.drop_length] at hneed
      simp at h6 hneed
      rw [h6] at hneed
      simpa using hneed
    · right
      rcases h.readNextL hwf hlen hg hi hn with ⟨e, he, hne⟩ | ⟨q, hq, hrep, hlt⟩
      · exact .inl ⟨e, by simp [Posts.nextL, hi, hn, he, bind, Except.bind], hne⟩
      · obtain ⟨v, rem', h1, h2, h3⟩ := key q hrep hlt
        exact .inr ⟨v, rem', _, h1, by simp [Posts.nextL, hi, hn, hq, bind, Except.bind, h2, pure, Except.pure], h3⟩
  · have hlt : p.i < p.docids.length := by obtain ⟨_, _, _, _, _, _, hle, _⟩ := h; omega
    obtain ⟨v, rem', h1, h2, h3⟩ := key p h hlt
    exact .inr (.inr ⟨v, rem', _, h1, by simp [Posts.nextL, hi, bind, Except.bind, h2, pure, Except.pure], h3⟩)

end Dupi
