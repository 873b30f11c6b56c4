import Verif.Proof.Shard
/-! # Properties of shards: C14 – C17 -/

namespace Dupi.Props
open Spec

/-- Session that creates a shard: `InitCreate`, the posts, `Close`. -/
def shardCreate (n : Nat) (posts : List (UInt32 × Nat)) : M ShardFiles := do
  let x ← (ShardIndexer.initCreate n).addAll posts
  x.close

/-- Session that appends to a shard: `InitAppend`, the posts, `Close`. -/
def shardAppend (n : Nat) (d : ShardFiles) (posts : List (UInt32 × Nat)) : M ShardFiles := do
  let x ← ShardIndexer.initAppend n d
  let x ← x.addAll posts
  x.close

/-- appending sessions in a row -/
def shardAppends (n : Nat) (d : ShardFiles) : List (List (UInt32 × Nat)) → M ShardFiles
  | [] => .ok d
  | posts :: ss => do
    let d ← shardAppend n d posts
    shardAppends n d ss

/-- `ReadState.Next` delivers exactly `vs` and then `io.EOF`. -/
inductive Yields : ReadState → List UInt32 → Prop where
  | eof {s : ReadState} : s.next = fail .eof → Yields s []
  | cons {s s' : ReadState} {v : UInt32} {vs : List UInt32} : s.next = .ok (v, s') → Yields s' vs → Yields s (v :: vs)

theorem yields_of_rep {vs : List UInt32} : ∀ {s : ReadState}, PostsRep s.file s.posts vs → Yields s vs := by
  induction vs with
  | nil => intro s h; exact .eof (by simp [ReadState.next, h.eof, bind, Except.bind])
  | cons v vs ih =>
    intro s h
    obtain ⟨p, hp, hr⟩ := h.step
    exact .cons (s' := { s with posts := p }) (by simp [ReadState.next, hp, bind, Except.bind, pure, Except.pure]) (ih hr)

theorem shardSessions_closed (n : Nat) (ss : List (List (UInt32 × Nat))) : ∀ (old : List (UInt32 × Nat)) bs ps,
    ClosedRep n bs ps (postings old) →
    (∀ q ∈ old ++ ss.flatten, q.2 < n) → (∀ b, (postings (old ++ ss.flatten) b).length < 2 ^ 32) →
    23 * (old ++ ss.flatten).length < 2 ^ 63 →
    ∃ bs' ps', shardAppends n ⟨render 0 bs, ps.flatMap ShardIndexer.iixEntry⟩ ss = .ok ⟨render 0 bs', ps'.flatMap ShardIndexer.iixEntry⟩ ∧
      ClosedRep n bs' ps' (postings (old ++ ss.flatten)) := by
  induction ss with
  | nil => intro old bs ps h _ _ _; exact ⟨bs, ps, rfl, by simpa using h⟩
  | cons s ss ih =>
    intro old bs ps h hb hlen hsz
    have hsz' := h.size
    rw [List.flatten_cons, ← List.append_assoc] at hb hlen hsz ⊢
    simp only [shardAppends, shardAppend]
    rw [h.reopen (by simp only [List.length_append] at hsz; omega)]
    obtain ⟨x, hx, hxr⟩ := h.shardRep.addAll s (fun q hq => hb q (by simp [hq]))
      (fun b => Nat.lt_of_le_of_lt (postings_mono _ _ _) (hlen b))
    obtain ⟨ps', bs', hc, hcr⟩ := hxr.close
    obtain ⟨bs2, ps2, h2, h2r⟩ := ih (old ++ s) bs' ps' hcr hb hlen hsz
    exact ⟨bs2, ps2, by simp only [bind, Except.bind, hx, hc, h2], h2r⟩

theorem shardCreate_closed (n : Nat) (posts : List (UInt32 × Nat)) (hb : ∀ q ∈ posts, q.2 < n)
    (hlen : ∀ b, (postings posts b).length < 2 ^ 32) :
    ∃ bs ps, shardCreate n posts = .ok ⟨render 0 bs, ps.flatMap ShardIndexer.iixEntry⟩ ∧ ClosedRep n bs ps (postings posts) := by
  have h0 : ShardRep n (ShardIndexer.initCreate n) (postings []) := initCreate_rep n
  obtain ⟨x, hx, hxr⟩ := h0.addAll posts hb (by simpa using hlen)
  obtain ⟨ps, bs, hc, hcr⟩ := hxr.close
  exact ⟨bs, ps, by simp only [shardCreate, bind, Except.bind, hx, hc], by simpa using hcr⟩

theorem index_reads {srt : Sorter} {n : Nat} {x : ShardIndex} {vals : Nat → List UInt32} (h : IndexRep srt n x vals)
    (b : Nat) (hb : b < n) : ∃ s c, x.readStateFor b = .ok s ∧ Yields s (vals b) ∧ x.count b = .ok c ∧ s.total = c ∧
      c.toNat = (vals b).length := by
  have h1 : x.heads[b]? = some (x.heads[b]'(by rw [h.lenH]; exact hb)) := List.getElem?_eq_getElem _
  have h2 : x.counts[b]? = some (x.counts[b]'(by rw [h.lenC]; exact hb)) := List.getElem?_eq_getElem _
  have h3 := h.counts b hb
  simp only [List.getD_eq_getElem?_getD, h2, Option.getD_some] at h3
  refine ⟨_, _, by simp only [ShardIndex.readStateFor, ShardIndex.readStateForBlotAt, h1, h2]; rfl, ?_, by simp only [ShardIndex.count, h2], rfl, h3⟩
  exact yields_of_rep (h.posts b _ h1)

/-- **C14/C15.**  Whatever is posted to a shard, in whatever number of sessions each closing and
reopening it, reading it afterwards succeeds, and for each of its `n` buckets yields exactly the
docids posted to that bucket over the whole history in order (consecutive repetitions collapsed)
followed by end-of-list. -/
theorem C14_postings (srt : Sorter) (n : Nat) (first : List (UInt32 × Nat)) (later : List (List (UInt32 × Nat)))
    (hb : ∀ q ∈ first ++ later.flatten, q.2 < n)
    (hlen : ∀ b, (postings (first ++ later.flatten) b).length < 2 ^ 32)
    (hsz : 23 * (first ++ later.flatten).length < 2 ^ 63) :
    ∃ d0 d x, shardCreate n first = .ok d0 ∧ shardAppends n d0 later = .ok d ∧ ShardIndex.init srt n d = .ok x ∧
      ∀ b, b < n → ∃ s, x.readStateFor b = .ok s ∧ Yields s (postings (first ++ later.flatten) b) := by
  obtain ⟨bs, ps, h1, h2⟩ := shardCreate_closed n first (fun q hq => hb q (by simp [hq]))
    (fun b => Nat.lt_of_le_of_lt (postings_mono _ _ _) (hlen b))
  obtain ⟨bs', ps', h3, h4⟩ := shardSessions_closed n later first bs ps h2 hb hlen hsz
  obtain ⟨x, h5, h6, _⟩ := h4.index (Nat.lt_of_le_of_lt h4.size hsz) srt
  refine ⟨_, _, x, h1, h3, h5, fun b hb => ?_⟩
  obtain ⟨s, c, h7, h8, _⟩ := index_reads h6 b hb
  exact ⟨s, h7, h8⟩

/-- **C15.**  Splitting a history into sessions does not show: for every bucket the shard written in
several sessions and the shard written in one go yield the same docids and report the same count. -/
theorem C15_sessions (srt : Sorter) (n : Nat) (first : List (UInt32 × Nat)) (later : List (List (UInt32 × Nat)))
    (hb : ∀ q ∈ first ++ later.flatten, q.2 < n)
    (hlen : ∀ b, (postings (first ++ later.flatten) b).length < 2 ^ 32)
    (hsz : 23 * (first ++ later.flatten).length < 2 ^ 63) :
    ∃ d0 d x d' x', shardCreate n first = .ok d0 ∧ shardAppends n d0 later = .ok d ∧ ShardIndex.init srt n d = .ok x ∧
      shardCreate n (first ++ later.flatten) = .ok d' ∧ ShardIndex.init srt n d' = .ok x' ∧
      ∀ b, b < n → x.count b = x'.count b ∧
        ∃ s s' vs, x.readStateFor b = .ok s ∧ x'.readStateFor b = .ok s' ∧ Yields s vs ∧ Yields s' vs := by
  obtain ⟨bs, ps, h1, h2⟩ := shardCreate_closed n first (fun q hq => hb q (by simp [hq]))
    (fun b => Nat.lt_of_le_of_lt (postings_mono _ _ _) (hlen b))
  obtain ⟨bs', ps', h3, h4⟩ := shardSessions_closed n later first bs ps h2 hb hlen hsz
  obtain ⟨x, h5, h6, _⟩ := h4.index (Nat.lt_of_le_of_lt h4.size hsz) srt
  obtain ⟨bs2, ps2, h7, h8⟩ := shardCreate_closed n (first ++ later.flatten) hb hlen
  obtain ⟨x', h9, h10, _⟩ := h8.index (Nat.lt_of_le_of_lt h8.size hsz) srt
  refine ⟨_, _, x, _, x', h1, h3, h5, h7, h9, fun b hb => ?_⟩
  obtain ⟨s, c, e1, e2, e3, _, e4⟩ := index_reads h6 b hb
  obtain ⟨s', c', f1, f2, f3, _, f4⟩ := index_reads h10 b hb
  refine ⟨?_, s, s', _, e1, f1, e2, f2⟩
  rw [e3, f3, UInt32.toNat_inj.mp (e4.trans f4.symm)]

/-- **C16.**  The count of each bucket is the number of docids its list yields, and `NumPosts` is
their sum. -/
theorem C16_counts (srt : Sorter) (n : Nat) (first : List (UInt32 × Nat)) (later : List (List (UInt32 × Nat)))
    (hb : ∀ q ∈ first ++ later.flatten, q.2 < n)
    (hlen : ∀ b, (postings (first ++ later.flatten) b).length < 2 ^ 32)
    (hsz : 23 * (first ++ later.flatten).length < 2 ^ 63) :
    ∃ d0 d x, shardCreate n first = .ok d0 ∧ shardAppends n d0 later = .ok d ∧ ShardIndex.init srt n d = .ok x ∧
      (∀ b, b < n → ∃ s vs c, x.readStateFor b = .ok s ∧ Yields s vs ∧ x.count b = .ok c ∧ s.total = c ∧ c.toNat = vs.length) ∧
      x.numPosts = ((List.range n).map fun b => (postings (first ++ later.flatten) b).length).sum := by
  obtain ⟨bs, ps, h1, h2⟩ := shardCreate_closed n first (fun q hq => hb q (by simp [hq]))
    (fun b => Nat.lt_of_le_of_lt (postings_mono _ _ _) (hlen b))
  obtain ⟨bs', ps', h3, h4⟩ := shardSessions_closed n later first bs ps h2 hb hlen hsz
  obtain ⟨x, h5, h6, _⟩ := h4.index (Nat.lt_of_le_of_lt h4.size hsz) srt
  refine ⟨_, _, x, h1, h3, h5, fun b hb => ?_, ?_⟩
  · obtain ⟨s, c, e1, e2, e3, e5, e4⟩ := index_reads h6 b hb
    exact ⟨s, _, c, e1, e2, e3, e5, e4⟩
  · unfold ShardIndex.numPosts
    congr 1
    apply List.ext_getElem
    · simp [h6.lenC]
    · intro i h1 h2
      have hi : i < n := by simpa [h6.lenC] using h1
      have := h6.counts i hi
      have hc : i < x.counts.length := by rw [h6.lenC]; exact hi
      simp only [List.getD_eq_getElem?_getD, List.getElem?_eq_getElem hc, Option.getD_some] at this
      simpa using this

/-- The indexer states a shard can be in: created, or reopened from what a session left, followed by
posts. -/
inductive Reachable (n : Nat) : List (UInt32 × Nat) → ShardIndexer → Prop where
  | create : Reachable n [] (ShardIndexer.initCreate n)
  | post {h : List (UInt32 × Nat)} {x y : ShardIndexer} {d : UInt32} {b : Nat} : Reachable n h x → x.add d b = .ok y → Reachable n (h ++ [(d, b)]) y
  | reopen {h : List (UInt32 × Nat)} {x y : ShardIndexer} {f : ShardFiles} : Reachable n h x → x.close = .ok f →
      ShardIndexer.initAppend n f = .ok y → Reachable n h y

theorem reachable_rep {n : Nat} {h : List (UInt32 × Nat)} {x : ShardIndexer} (hr : Reachable n h x)
    (hlen : ∀ b, (postings h b).length < 2 ^ 32) (hsz : 23 * h.length < 2 ^ 63) : ShardRep n x (postings h) := by
  induction hr with
  | create => exact initCreate_rep n
  | post hr ha ih =>
    rename_i h x y d b
    have := ih (fun b => Nat.lt_of_le_of_lt (postings_mono _ _ _) (hlen b)) (by simp at hsz; omega)
    by_cases hb : b < n
    · obtain ⟨z, hz, hzr⟩ := this.add d b hb (by rw [pushVal_postings]; exact hlen b)
      rw [ha] at hz; injection hz with hz; subst hz
      rw [pushVal_postings] at hzr; exact hzr
    · obtain ⟨bs, _, _, _, hn, _⟩ := this
      have : x.ind[b]? = none := List.getElem?_eq_none (by omega)
      simp [ShardIndexer.add, this] at ha
  | reopen hr hc ho ih =>
    obtain ⟨ps, bs, h1, h2⟩ := (ih hlen hsz).close
    rw [hc] at h1; injection h1 with h1; subst h1
    rw [h2.reopen (Nat.lt_of_le_of_lt h2.size hsz)] at ho
    injection ho with ho; subst ho
    exact h2.shardRep

/-- **C17.**  In every reachable state: the in-memory buffer of every poster has room for one more
docid and the link (so `append` never reallocates it), and everything a flush would write at once —
even right after one more post — fits the reader's fixed buffer.  With C14 (reading returns the
docids and EOF, never a panic) the slicing `p.buf[:v]` in the reader is in range. -/
theorem C17_fits {n : Nat} {h : List (UInt32 × Nat)} {x : ShardIndexer} (hr : Reachable n h x)
    (hlen : ∀ b, (postings h b).length < 2 ^ 32) (hsz : 23 * h.length < 2 ^ 63) (p : Poster) (hp : p ∈ x.ind) (v : UInt32) :
    (p.posts ++ putUvarint (v - p.current).toNat ++ be64 (i64ToU64 (-1))).length ≤ Poster.postsCap ∧
    ∀ size ws q, Poster.flushWrites { p with posts := p.posts ++ putUvarint (v - p.current).toNat } size = .ok (ws, q) →
      ∀ w ∈ ws, w.2.length ≤ Posts.bufLen := by
  obtain ⟨bs, _, _, _, _, hrep⟩ := reachable_rep hr hlen hsz
  obtain ⟨o, ho⟩ := List.getElem?_of_mem hp
  have hs := (hrep o p ho).2
  have hd : (putUvarint (v - p.current).toNat).length ≤ 5 := putUvarint_length_u32 (v - p.current).toNat_lt
  constructor
  · rw [show Poster.postsCap = 530 from rfl]
    simp [be64_length]; omega
  · intro size ws q hw w hmem
    rw [show Posts.bufLen = 530 from rfl]
    unfold Poster.flushWrites at hw
    have hl : (putVarint (((p.posts ++ putUvarint (v - p.current).toNat ++ be64 (i64ToU64 (-1))).length : Nat) : Int)).length ≤ 10 :=
      putUvarint_length_u64 (zigzag_lt _ (by omega) (by simp [be64_length]; omega))
    split at hw
    · injection hw with hw; injection hw with h1 h2; subst h1; simp at hmem
    · simp only [bind, Except.bind] at hw
      split at hw
      · simp at hw
      · rename_i patch hpatch
        simp only [pure, Except.pure, Except.ok.injEq, Prod.mk.injEq] at hw
        obtain ⟨hw, _⟩ := hw
        subst hw
        rcases List.mem_append.mp hmem with hm | hm
        · split at hpatch
          · split at hpatch
            · simp at hpatch
            · simp only [pure, Except.pure, Except.ok.injEq] at hpatch
              subst hpatch
              rw [List.mem_singleton.mp hm]; simp [be64_length]
          · simp only [pure, Except.pure, Except.ok.injEq] at hpatch
            subst hpatch; simp at hm
        · rcases List.mem_cons.mp hm with e | e
          · rw [e]; exact Nat.le_trans hl (by decide)
          · rw [List.mem_singleton.mp e]
            simp [be64_length]; omega

/-! ### The hypotheses are met -/

/-- the example: two sessions, two buckets, a document posted twice, docids that go back -/
private def exFirst : List (UInt32 × Nat) := [(1, 0), (1, 1), (1, 0), (2, 1), (4294967295, 0)]
private def exLater : List (List (UInt32 × Nat)) := [[(3, 0), (3, 0), (2, 1)], [], [(9, 1)]]

example : ∀ q ∈ exFirst ++ exLater.flatten, q.2 < 2 := by decide
example : 23 * (exFirst ++ exLater.flatten).length < 2 ^ 63 := by decide
example : postings (exFirst ++ exLater.flatten) 0 = [1, 4294967295, 3] := by decide
example : postings (exFirst ++ exLater.flatten) 1 = [1, 2, 9] := by decide
example : ∀ b, (postings (exFirst ++ exLater.flatten) b).length < 2 ^ 32 := by
  intro b
  have h : (postings (exFirst ++ exLater.flatten) b).length ≤ (exFirst ++ exLater.flatten).length := by
    have := sum_postings (b + 1) (exFirst ++ exLater.flatten)
    rw [List.range_succ, List.map_append, List.sum_append] at this
    simp at this ⊢; omega
  exact Nat.lt_of_le_of_lt h (by decide)

example : Reachable 2 [(1, 0)] ⟨[{ Poster.initCommon with current := 1, total := 1, posts := [1] }, Poster.initCommon], []⟩ :=
  .post (h := []) .create (by decide +kernel)

end Dupi.Props
