import Verif.Proof.CrashRun
/-! # Which parts of a posting file are touched by what -/

namespace Dupi
open Spec

/-- the bytes from `p` on, `len` of them, do not belong to blocks of `o` -/
def Misses (o : Nat) (p len : Nat) : Nat → List Blk → Prop
  | _, [] => True
  | off, b :: bs => (b.owner = o → p + len ≤ off ∨ off + b.size ≤ p) ∧ Misses o p len (off + b.size) bs

theorem Misses.take {o p len k : Nat} (hk : k ≤ len) (bs : List Blk) : ∀ {off : Nat}, Misses o p len off bs → Misses o p k off bs := by
  induction bs with
  | nil => intro off _; trivial
  | cons b bs ih =>
    intro off h
    exact ⟨fun hb => by rcases h.1 hb with h | h <;> omega, ih h.2⟩

theorem Misses.left {o p len : Nat} (a b : List Blk) : ∀ {off : Nat}, Misses o p len off (a ++ b) → Misses o p len off a := by
  induction a with
  | nil => intro off _; trivial
  | cons c a ih => intro off h; exact ⟨h.1, ih h.2⟩

/-- what lies behind the blocks -/
theorem Misses.behind {o p len : Nat} (bs : List Blk) : ∀ {off : Nat}, off + sizes bs ≤ p → Misses o p len off bs := by
  induction bs with
  | nil => intro off _; trivial
  | cons b bs ih =>
    intro off h
    rw [sizes_cons] at h
    exact ⟨fun _ => .inr (by omega), ih (by omega)⟩

theorem Misses.before {o p len : Nat} (bs : List Blk) : ∀ {off : Nat}, p + len ≤ off → Misses o p len off bs := by
  induction bs with
  | nil => intro off _; trivial
  | cons b bs ih => intro off h; exact ⟨fun _ => .inl h, ih (by omega)⟩

/-- the last link of another poster -/
theorem Misses.link {o q : Nat} (hne : q ≠ o) (bs : List Blk) : ∀ {off : Nat}, lastLink q off bs ≠ -1 → Misses o (lastLink q off bs).toNat 8 off bs := by
  induction bs with
  | nil => intro off _; trivial
  | cons b bs ih =>
    intro off h
    have h8 : 8 ≤ b.size := by unfold Blk.size; omega
    rw [lastLink] at h ⊢
    split
    · rename_i hl
      refine ⟨fun _ => .inr ?_, ih hl⟩
      rcases lastLink_ge q bs (off + b.size) with h | h
      · exact absurd h hl
      · omega
    · rename_i hl
      rw [if_neg hl] at h
      split
      · rename_i hb
        exact ⟨fun hb' => absurd (hb.symm.trans hb') hne, Misses.before bs (by omega)⟩
      · rename_i hb
        rw [if_neg hb] at h
        exact absurd rfl h

theorem take_drop_writeAt (f : Bytes) (p : Nat) (data : Bytes) (a n : Nat) (hn : a + n ≤ f.length) (h : p + data.length ≤ a ∨ a + n ≤ p) :
    ((writeAt f p data).drop a).take n = (f.drop a).take n := by
  apply List.ext_getElem?
  intro i
  simp only [List.getElem?_take, List.getElem?_drop]
  split
  · rename_i hi
    unfold writeAt
    rcases h with h | h
    · rw [List.append_assoc, List.getElem?_append_right (by rw [List.length_take, List.length_append, List.length_replicate]; omega)]
      rw [List.getElem?_append_right (by rw [List.length_take, List.length_append, List.length_replicate]; omega), List.getElem?_drop]
      congr 1
      rw [List.length_take, List.length_append, List.length_replicate]; omega
    · rw [List.append_assoc, List.getElem?_append_left (by rw [List.length_take, List.length_append, List.length_replicate]; omega),
        List.getElem?_take, if_pos (by omega), List.getElem?_append_left (by omega)]
  · rfl

theorem Covers.writeAt {o : Nat} {f : Bytes} {p : Nat} {data : Bytes} (bs : List Blk) : ∀ {off : Nat}, Covers o f off bs →
    Misses o p data.length off bs → Covers o (writeAt f p data) off bs := by
  induction bs with
  | nil => intro off _ _; trivial
  | cons b bs ih =>
    intro off h hm
    refine ⟨fun hb => ?_, ih h.2 hm.2⟩
    have h1 := h.1 hb
    have hl := congrArg List.length h1
    have hpos : 0 < b.size := by unfold Blk.size; omega
    rw [blk_bytes_length, List.length_take, List.length_drop] at hl
    rw [take_drop_writeAt _ _ _ _ _ (by omega) (hm.1 hb), h1]

/-- no blocks of `o` in `ex`: nothing changes for `o` -/
theorem nextOff_foreign {o : Nat} {ex : List Blk} (h : ∀ b ∈ ex, b.owner ≠ o) : ∀ off, nextOff o off ex = -1 := by
  induction ex with
  | nil => intro off; rfl
  | cons b ex ih =>
    intro off
    rw [nextOff, if_neg (h b (by simp))]
    exact ih (fun c hc => h c (by simp [hc])) _

/-! ### What a flush touches -/

theorem flushWrites_misses {bs : List Blk} {q : Nat} {p p' : Poster} (h : p.link = lastLink q 0 bs) {o : Nat} (hne : q ≠ o)
    {ws : List (Nat × Bytes)} (hw : p.flushWrites (render 0 bs).length = .ok (ws, p')) : ∀ w ∈ ws, Misses o w.1 w.2.length 0 bs := by
  unfold Poster.flushWrites at hw
  split at hw
  · simp only [Except.ok.injEq, Prod.mk.injEq] at hw
    rw [← hw.1]; simp
  · have hl : (render 0 bs).length = sizes bs := render_length bs 0
    split at hw
    · rename_i hlk
      rw [h] at hlk
      split at hw
      · simp [bind, Except.bind] at hw
      · simp only [bind, Except.bind, pure, Except.pure, Except.ok.injEq, Prod.mk.injEq] at hw
        rw [← hw.1]
        intro w hw
        simp only [List.cons_append, List.nil_append, List.mem_cons, List.not_mem_nil, or_false] at hw
        rcases hw with rfl | rfl | rfl
        · rw [h]; exact Misses.link hne bs hlk
        · exact Misses.behind bs (by simp only [hl]; omega)
        · exact Misses.behind bs (by simp only [hl]; omega)
    · simp only [bind, Except.bind, pure, Except.pure, Except.ok.injEq, Prod.mk.injEq] at hw
      rw [← hw.1]
      intro w hw
      simp only [List.nil_append, List.mem_cons, List.not_mem_nil, or_false] at hw
      rcases hw with rfl | rfl
      · exact Misses.behind bs (by simp only [hl]; omega)
      · exact Misses.behind bs (by simp only [hl]; omega)

/-- a post of another bucket -/
theorem addPostWrites_misses {bs : List Blk} {q : Nat} {p : Poster} {vals : List UInt32} (h : PosterRep bs q p vals) {o : Nat} (hne : q ≠ o)
    {v : UInt32} {ws : List (Nat × Bytes)} (hw : p.addPostWrites v (render 0 bs) = .ok ws) : ∀ w ∈ ws, Misses o w.1 w.2.length 0 bs := by
  unfold Poster.addPostWrites at hw
  split at hw
  · simp only [Except.ok.injEq] at hw; rw [← hw]; simp
  · simp only [] at hw
    split at hw
    · cases hf : Poster.flushWrites { p with current := v, total := p.total + 1, posts := p.posts ++ putUvarint (v - p.current).toNat } (render 0 bs).length with
      | error e => rw [hf] at hw; simp [Except.map] at hw
      | ok r =>
        rw [hf] at hw
        simp only [Except.map, Except.ok.injEq] at hw
        rw [← hw]
        exact flushWrites_misses (p' := r.2) (by exact h.link) hne hf
    · simp only [Except.ok.injEq] at hw; rw [← hw]; simp

theorem flushed_length_append (o : Nat) (a b : List Blk) : (flushed o (a ++ b)).length = (flushed o a).length + (flushed o b).length := by
  simp [flushed]

/-- a post of the bucket itself that does not fill the buffer -/
theorem addPostWrites_few {bs : List Blk} {o : Nat} {p : Poster} {vals : List UInt32} (h : PosterRep bs o p vals) {v : UInt32} {f : Bytes}
    (hk : (if vals.getLast? = some v then vals else vals ++ [v]).length ≤ (flushed o bs).length + 102) : p.addPostWrites v f = .ok [] := by
  unfold Poster.addPostWrites
  have hiff : (p.current = v ∧ p.total ≠ 0) ↔ vals.getLast? = some v := by
    rw [getLast?_eq_iff, h.current, ne_eq, u32_toNat_zero, h.total]
    simp
  split
  · rfl
  · rename_i hc
    rw [if_neg (fun e => hc (hiff.mpr e))] at hk
    obtain ⟨ds, h1, h2⟩ := h.pend
    have h3 := congrArg List.length h2
    rw [List.length_append, deltasFrom_length] at h3
    have h4 := encDeltas_length_le ds
    have hd : (putUvarint (v - p.current).toNat).length ≤ 5 := putUvarint_length_u32 (v - p.current).toNat_lt
    simp only []
    rw [List.length_append, List.length_singleton] at hk
    rw [if_neg (by rw [List.length_append, h1, show Poster.flushRate = 512 from rfl]; omega)]

theorem ShardOn.addWrites_misses {bs : List Blk} {n : Nat} {x : ShardIndexer} {vals : Nat → List UInt32} (h : ShardOn bs n x vals) (d : UInt32) (b : Nat)
    {o : Nat} (hk : (pushVal vals d b o).length ≤ (flushed o bs).length + 102) {ws : List (Nat × Bytes)} (hw : x.addWrites d b = .ok ws) :
    ∀ w ∈ ws, Misses o w.1 w.2.length 0 bs := by
  obtain ⟨hf, hwf, how, hn, hp⟩ := h
  unfold ShardIndexer.addWrites at hw
  cases hg : x.ind[b]? with
  | none => simp [hg, panic'] at hw
  | some p =>
    simp only [hg] at hw
    obtain ⟨h1, h2⟩ := hp b p hg
    by_cases e : b = o
    · subst e
      simp only [pushVal, if_true] at hk
      rw [addPostWrites_few h1 hk] at hw
      simp only [Except.ok.injEq] at hw
      rw [← hw]; simp
    · rw [hf] at hw
      exact addPostWrites_misses h1 e hw

/-- the writes of a shard's goroutine do not touch the blocks of a bucket that gets no more than 102 new posts -/
theorem ShardOn.addAllWrites_misses {n o : Nat} (posts : List (UInt32 × Nat)) : ∀ {bs : List Blk} {x : ShardIndexer} {old : List (UInt32 × Nat)}
    {ws : List (Nat × Bytes)}, ShardOn bs n x (postings old) → (∀ q ∈ posts, q.2 < n) → (∀ b, (postings (old ++ posts) b).length < 2 ^ 32) →
    (postings (old ++ posts) o).length ≤ (flushed o bs).length + 102 → x.addAllWrites posts = .ok ws → ∀ w ∈ ws, Misses o w.1 w.2.length 0 bs := by
  induction posts with
  | nil =>
    intro bs x old ws _ _ _ _ hw
    simp only [ShardIndexer.addAllWrites, Except.ok.injEq] at hw
    rw [← hw]; simp
  | cons q posts ih =>
    obtain ⟨d, b⟩ := q
    intro bs x old ws h hb hlen hk hw
    have hassoc : old ++ (d, b) :: posts = (old ++ [(d, b)]) ++ posts := by simp
    rw [hassoc] at hlen hk
    have hpl : ∀ o, (pushVal (postings old) d b o).length ≤ (postings (old ++ [(d, b)] ++ posts) o).length := by
      intro o; rw [pushVal_postings]; exact postings_mono _ _ _
    simp only [ShardIndexer.addAllWrites, bind, Except.bind, pure, Except.pure] at hw
    cases h1 : x.addWrites d b with
    | error e => simp [h1] at hw
    | ok ws1 =>
      simp only [h1] at hw
      obtain ⟨y, ex, h2, h3, h4⟩ := h.add d b (hb (d, b) (by simp)) (Nat.lt_of_le_of_lt (hpl b) (hlen b))
      simp only [h2] at hw
      cases h5 : y.addAllWrites posts with
      | error e => simp [h5] at hw
      | ok ws2 =>
        simp only [h5, Except.ok.injEq] at hw
        rw [pushVal_postings] at h3
        have hfl := flushed_length_append o bs ex
        intro w hwm
        rw [← hw] at hwm
        rcases List.mem_append.mp hwm with hm | hm
        · exact h.addWrites_misses d b (by have := hpl o; omega) h1 w hm
        · exact (ih h3 (fun q hq => hb q (by simp [hq])) hlen (by omega) h5 w hm).left

theorem le_sum_of_mem (l : List Nat) : ∀ a, a ∈ l → a ≤ l.sum := by
  induction l with
  | nil => intro a h; simp at h
  | cons b l ih =>
    intro a h
    rcases List.mem_cons.mp h with rfl | h
    · simp
    · have := ih a h; simp; omega

/-- the blocks after some posts; there is no new one of a bucket that gets no more than 102 new posts -/
theorem ShardOn.addAll {n : Nat} (posts : List (UInt32 × Nat)) : ∀ {bs : List Blk} {x : ShardIndexer} {old : List (UInt32 × Nat)},
    ShardOn bs n x (postings old) → (∀ q ∈ posts, q.2 < n) → (∀ b, (postings (old ++ posts) b).length < 2 ^ 32) →
    ∃ y ex, x.addAll posts = .ok y ∧ ShardOn (bs ++ ex) n y (postings (old ++ posts)) ∧
      ∀ o, (postings (old ++ posts) o).length ≤ (flushed o bs).length + 102 → ∀ b ∈ ex, b.owner ≠ o := by
  induction posts with
  | nil => intro bs x old h _ _; exact ⟨x, [], rfl, by simpa using h, by simp⟩
  | cons q posts ih =>
    obtain ⟨d, b⟩ := q
    intro bs x old h hb hlen
    have hassoc : old ++ (d, b) :: posts = (old ++ [(d, b)]) ++ posts := by simp
    rw [hassoc] at hlen ⊢
    have hpl : ∀ o, (pushVal (postings old) d b o).length ≤ (postings (old ++ [(d, b)] ++ posts) o).length := by
      intro o; rw [pushVal_postings]; exact postings_mono _ _ _
    obtain ⟨y, ex, h2, h3, h4⟩ := h.add d b (hb (d, b) (by simp)) (Nat.lt_of_le_of_lt (hpl b) (hlen b))
    rw [pushVal_postings] at h3
    obtain ⟨z, ex', h5, h6, h7⟩ := ih h3 (fun q hq => hb q (by simp [hq])) hlen
    refine ⟨z, ex ++ ex', by simp [ShardIndexer.addAll, h2, h5, bind, Except.bind], by rw [← List.append_assoc]; exact h6, fun o ho c hc => ?_⟩
    have hfl := flushed_length_append o bs ex
    rcases List.mem_append.mp hc with hc | hc
    · intro e
      -- the post was only put into the buffer
      rw [h4 c hc] at e
      subst e
      obtain ⟨ws, w1, w2⟩ := ShardIndexer.addWrites_spec h2
      obtain ⟨p, hp⟩ : ∃ p, x.ind[b]? = some p := ⟨_, List.getElem?_eq_getElem (by rw [h.2.2.2.1]; exact hb (d, b) (by simp))⟩
      have hpv := hpl b
      simp only [pushVal, if_true] at hpv
      simp only [ShardIndexer.addWrites, hp, addPostWrites_few ((h.2.2.2.2 b p hp).1) (f := x.file) (v := d) (by omega), Except.ok.injEq] at w1
      rw [← w1, h.1, h3.1] at w2
      have w3 := congrArg List.length w2
      simp only [Poster.applyWrites, List.foldl_nil, render_length, sizes, List.map_append, List.sum_append] at w3
      have hle : c.size ≤ (ex.map Blk.size).sum := le_sum_of_mem (ex.map Blk.size) _ (List.mem_map_of_mem hc)
      unfold Blk.size at hle
      unfold Blk.size at w3
      omega
    · exact h7 o (by omega) c hc

/-! ### Closing -/

/-- flushing the posters after bucket `o` does not touch the blocks of `o` -/
theorem flushIndWrites_after (vals : Nat → List UInt32) (o : Nat) : ∀ (ps : List Poster) (k : Nat) (bs : List Blk) (wsr : List (Nat × Bytes)), o < k →
    (∀ b ∈ bs, b.WF) → (∀ (i : Nat) q, ps[i]? = some q → PosterRep bs (i + k) q (vals (i + k)) ∧ q.posts.length < 512) →
    ShardIndexer.flushIndWrites ps (render 0 bs) = .ok wsr → ∀ w ∈ wsr, Misses o w.1 w.2.length 0 bs := by
  intro ps
  induction ps with
  | nil =>
    intro k bs wsr _ _ _ hw
    simp only [ShardIndexer.flushIndWrites, Except.ok.injEq] at hw
    rw [← hw]; simp
  | cons q ps ih =>
    intro k bs wsr hk hwf hrep hw
    simp only [ShardIndexer.flushIndWrites, bind, Except.bind, pure, Except.pure] at hw
    obtain ⟨hr, hs⟩ := hrep 0 q rfl
    rw [Nat.zero_add] at hr
    obtain ⟨q', bs', h1, h2, h3, h4, h5, ex, e1, e2⟩ := flushTo_spec hr hwf (by omega)
    subst e1
    cases hf : q.flushWrites (render 0 bs).length with
    | error e => simp [hf] at hw
    | ok r =>
      obtain ⟨wsq, q''⟩ := r
      simp only [hf] at hw
      simp only [Poster.flushTo, hf, bind, Except.bind, pure, Except.pure, Except.ok.injEq, Prod.mk.injEq] at h1
      rw [h1.2] at hw
      cases hrest : ShardIndexer.flushIndWrites ps (render 0 (bs ++ ex)) with
      | error e => simp [hrest] at hw
      | ok wsr =>
        simp only [hrest, Except.ok.injEq] at hw
        intro w hwm
        rw [← hw] at hwm
        rcases List.mem_append.mp hwm with hm | hm
        · exact flushWrites_misses hr.link (by omega) hf w hm
        · refine (ih (k + 1) (bs ++ ex) wsr (by omega) h2 (fun i q hq => ?_) hrest w hm).left
          have := hrep (i + 1) q (by simpa using hq)
          rw [show i + 1 + k = i + (k + 1) by omega] at this
          exact ⟨h5 _ q _ (by omega) this.1, this.2⟩

/-- flushing all posters: what happens before it is the turn of poster `o`, what that does, and the rest -/
theorem flushIndWrites_split (vals : Nat → List UInt32) (ps : List Poster) : ∀ (k : Nat) (bs : List Blk) (o : Nat) (p : Poster), k ≤ o → ps[o - k]? = some p →
    (∀ b ∈ bs, b.WF) → (∀ (i : Nat) q, ps[i]? = some q → PosterRep bs (i + k) q (vals (i + k)) ∧ q.posts.length < 512) →
    ∀ {ws : List (Nat × Bytes)}, ShardIndexer.flushIndWrites ps (render 0 bs) = .ok ws →
    ∃ ws1 ws2 ws3 ex p', ws = ws1 ++ ws2 ++ ws3 ∧ (∀ b ∈ ex, b.owner ≠ o) ∧ (∀ b ∈ ex, b.WF) ∧ Poster.applyWrites (render 0 bs) ws1 = render 0 (bs ++ ex) ∧
      PosterRep (bs ++ ex) o p (vals o) ∧ p.flushWrites (render 0 (bs ++ ex)).length = .ok (ws2, p') ∧
      (∀ w ∈ ws1, Misses o w.1 w.2.length 0 bs) ∧
      (p.posts = [] → ∀ w ∈ ws, Misses o w.1 w.2.length 0 bs) := by
  induction ps with
  | nil => intro k bs o p _ h; simp at h
  | cons q ps ih =>
    intro k bs o p hk hp hwf hrep ws hw
    simp only [ShardIndexer.flushIndWrites, bind, Except.bind, pure, Except.pure] at hw
    obtain ⟨hr, hs⟩ := hrep 0 q rfl
    rw [Nat.zero_add] at hr
    obtain ⟨q', bs', h1, h2, h3, h4, h5, ex, e1, e2⟩ := flushTo_spec hr hwf (by omega)
    subst e1
    cases hf : q.flushWrites (render 0 bs).length with
    | error e => simp [hf] at hw
    | ok r =>
      obtain ⟨wsq, q''⟩ := r
      simp only [hf] at hw
      simp only [Poster.flushTo, hf, bind, Except.bind, pure, Except.pure, Except.ok.injEq, Prod.mk.injEq] at h1
      rw [h1.2] at hw
      cases hrest : ShardIndexer.flushIndWrites ps (render 0 (bs ++ ex)) with
      | error e => simp [hrest] at hw
      | ok wsr =>
        simp only [hrest, Except.ok.injEq] at hw
        have hrep' : ∀ (i : Nat) q, ps[i]? = some q → PosterRep (bs ++ ex) (i + (k + 1)) q (vals (i + (k + 1))) ∧ q.posts.length < 512 := by
          intro i q hq
          have := hrep (i + 1) q (by simpa using hq)
          rw [show i + 1 + k = i + (k + 1) by omega] at this
          exact ⟨h5 _ q _ (by omega) this.1, this.2⟩
        by_cases e : o = k
        · subst e
          rw [Nat.sub_self] at hp
          simp only [List.getElem?_cons_zero, Option.some.injEq] at hp
          subst hp
          refine ⟨[], wsq, wsr, [], q'', by simp [hw], by simp, by simp, by simp [Poster.applyWrites], by simpa using hr, by simpa using hf, by simp, ?_⟩
          intro hpe w hwm
          rw [Poster.flushWrites, if_pos hpe] at hf
          simp only [Except.ok.injEq, Prod.mk.injEq] at hf
          rw [← hw, ← hf.1, List.nil_append] at hwm
          -- the posters after this one
          cases ps with
          | nil => simp only [ShardIndexer.flushIndWrites, Except.ok.injEq] at hrest; rw [← hrest] at hwm; simp at hwm
          | cons q2 ps =>
            exact (flushIndWrites_after vals o _ (o + 1) _ _ (by omega) h2 hrep' hrest w hwm).left
        · have hgo : ps[o - (k + 1)]? = some p := by
            rw [show o - k = (o - (k + 1)) + 1 by omega] at hp
            simpa using hp
          obtain ⟨ws1, ws2, ws3, ex', p', g1, g2, g3, g4, g5, g6, g7, g8⟩ := ih (k + 1) (bs ++ ex) o p (by omega) hgo h2 hrep' hrest
          have hm0 := flushWrites_misses hr.link (o := o) (by omega) hf
          refine ⟨wsq ++ ws1, ws2, ws3, ex ++ ex', p', by rw [← hw, g1]; simp, ?_, ?_, ?_, by rw [← List.append_assoc]; exact g5,
            by rw [← List.append_assoc]; exact g6, ?_, ?_⟩
          · intro b hb
            rcases List.mem_append.mp hb with hb | hb
            · rw [e2 b hb]; omega
            · exact g2 b hb
          · intro b hb
            rcases List.mem_append.mp hb with hb | hb
            · exact h2 b (by simp [hb])
            · exact g3 b hb
          · rw [applyWrites_append, h1.2, g4, List.append_assoc]
          · intro w hwm
            rcases List.mem_append.mp hwm with hm | hm
            · exact hm0 w hm
            · exact (g7 w hm).left
          · intro hpe w hwm
            rw [← hw] at hwm
            rcases List.mem_append.mp hwm with hm | hm
            · exact hm0 w hm
            · exact (g8 hpe w hm).left

end Dupi
