import Verif.Model.Shard
import Verif.Proof.PostsRead
import Verif.Spec.Postings
import Verif.Proof.ListX
/-! # The shard indexer represents the posting lists -/

namespace Dupi
open Spec

def deltasFrom (c : UInt32) : List UInt32 → List UInt32
  | [] => []
  | v :: vs => (v - c) :: deltasFrom v vs

theorem runSum_deltasFrom (vals : List UInt32) : ∀ c, runSum c (deltasFrom c vals) = vals := by
  induction vals with
  | nil => intro c; rfl
  | cons v vs ih =>
    intro c
    have : c + (v - c) = v := by rw [UInt32.add_comm, UInt32.sub_add_cancel]
    simp [deltasFrom, runSum, this, ih]

theorem deltasFrom_snoc (vals : List UInt32) (v : UInt32) : ∀ c,
    deltasFrom c (vals ++ [v]) = deltasFrom c vals ++ [v - vals.getLastD c] := by
  induction vals with
  | nil => intro c; simp [deltasFrom]
  | cons w vs ih =>
    intro c
    simp only [List.cons_append, deltasFrom, ih, List.getLastD_cons]

/-- poster `p` of bucket `o` together with the flushed blocks holds `vals` -/
structure PosterRep (bs : List Blk) (o : Nat) (p : Poster) (vals : List UInt32) : Prop where
  head : p.head = nextOff o 0 bs
  link : p.link = lastLink o 0 bs
  pend : ∃ ds, p.posts = encDeltas ds ∧ flushed o bs ++ ds = deltasFrom 0 vals
  current : p.current = vals.getLastD 0
  total : p.total.toNat = vals.length

theorem PosterRep.frame {bs : List Blk} {o : Nat} {p : Poster} {vals : List UInt32} (h : PosterRep bs o p vals)
    {nb : Blk} (hne : nb.owner ≠ o) : PosterRep (bs ++ [nb]) o p vals := by
  refine ⟨?_, ?_, ?_, h.current, h.total⟩
  · rw [nextOff_append, h.head]
    by_cases e : nextOff o 0 bs = -1 <;> simp [e, hne]
  · rw [lastLink_append, h.link]; simp [hne]
  · rw [flushed_append]; simpa [hne] using h.pend

/-- a flush appends the pending posts as one block, if there are any -/
theorem flushTo_exact {bs : List Blk} {o : Nat} {p : Poster} {vals : List UInt32} (h : PosterRep bs o p vals)
    (hwf : ∀ b ∈ bs, b.WF) (hs : p.posts.length ≤ 522) :
    ∃ p' bs', p.flushTo (render 0 bs) = .ok (p', render 0 bs') ∧ (∀ b ∈ bs', b.WF) ∧
      PosterRep bs' o p' vals ∧ p'.posts = [] ∧
      (∀ o' q vs, o' ≠ o → PosterRep bs o' q vs → PosterRep bs' o' q vs) ∧ (∃ ex, bs' = bs ++ ex ∧ (∀ b ∈ ex, b.owner = o ∧ b.payload = p.posts) ∧ ex.length = if p.posts = [] then 0 else 1) := by
  by_cases hp : p.posts = []
  · exact ⟨p, bs, by simp [Poster.flushTo, Poster.flushWrites, hp, bind, Except.bind, pure, Except.pure, Poster.applyWrites],
      hwf, h, hp, fun _ _ _ _ h => h, [], by simp, by simp, by simp [hp]⟩
  · obtain ⟨ds, hds, hfl⟩ := h.pend
    have hdsne : ds ≠ [] := by intro e; subst e; exact hp (by simp [hds, encDeltas])
    let nb : Blk := ⟨o, ds⟩
    have hpay : nb.payload = p.posts := hds.symm
    have hlen : ((p.posts ++ be64 (i64ToU64 (-1))).length) = p.posts.length + 8 := by
      rw [List.length_append, be64_length]
    have hhdr : putVarint (((p.posts ++ be64 (i64ToU64 (-1))).length : Nat) : Int) = nb.hdr := by
      rw [hlen, Blk.hdr, hpay]
    have hsz : (render 0 bs).length = sizes bs := render_length _ _
    have hrender := render_append nb bs 0
    rw [hpay] at hrender
    have hnbo : nb.owner = o := rfl
    rw [hnbo] at hrender
    have hpl : (patched o 0 bs).length = sizes bs := by
      have := congrArg List.length hrender
      rw [render_length] at this
      simp only [List.length_append, linkBytes_length] at this
      have e : sizes (bs ++ [nb]) = sizes bs + nb.size := by simp [sizes]
      rw [e, Blk.size, hpay] at this
      omega
    have hmain : ∀ F, F = patched o 0 bs →
        writeAt (writeAt F (sizes bs) nb.hdr) (sizes bs + nb.hdr.length) (p.posts ++ linkBytes (-1)) = render 0 (bs ++ [nb]) := by
      intro F hF
      rw [← hpl, ← hF, writeAt_end, show F.length + nb.hdr.length = (F ++ nb.hdr).length by simp, writeAt_end, hrender, hF]
      simp
    refine ⟨{ p with head := if p.link ≠ -1 then p.head else (sizes bs : Int),
                     link := (sizes bs : Int) + nb.hdr.length + (p.posts ++ be64 (i64ToU64 (-1))).length - 8, posts := [] }, bs ++ [nb], ?_, ?_, ?_, rfl, ?_, ?_⟩
    · unfold Poster.flushTo Poster.flushWrites
      simp only [hp, if_false, hhdr, hsz]
      by_cases hl : p.link = -1
      · simp only [hl, ne_eq, not_true, if_false, bind, Except.bind, pure, Except.pure, Poster.applyWrites, List.nil_append,
          List.foldl_cons, List.foldl_nil]
        congr 2
        apply hmain
        rw [patched, if_pos (by rw [← h.link]; exact hl)]
      · have hge := lastLink_ge o bs 0
        have hlk := h.link
        have h0 : ¬ p.link < 0 := by
          rcases hge with e | e
          · rw [hlk] at hl; exact absurd e hl
          · omega
        simp only [hl, ne_eq, not_false_eq_true, if_true, h0, if_false, bind, Except.bind, pure, Except.pure, Poster.applyWrites,
          List.singleton_append, List.foldl_cons, List.foldl_nil]
        congr 2
        apply hmain
        rw [patched, if_neg (by rw [← h.link]; exact hl), ← h.link, linkBytes_nat]
        simp
    · intro b hb
      rcases List.mem_append.mp hb with hb | hb
      · exact hwf b hb
      · rw [List.mem_singleton.mp hb]; exact ⟨hdsne, by rw [hpay]; exact hs⟩
    · refine ⟨?_, ?_, ⟨[], by simp [encDeltas], ?_⟩, h.current, h.total⟩
      · simp only [nextOff_append, h.head, h.link, Nat.zero_add]
        have := lastLink_none o bs 0
        by_cases e : lastLink o 0 bs = -1
        · simp [e, this.mp e, hnbo]
        · have : nextOff o 0 bs ≠ -1 := fun x => e (this.mpr x)
          simp [e, this]
      · simp only [lastLink_append, hnbo, if_true, hlen, Nat.zero_add]
        simp only [Blk.size, hpay]; omega
      · rw [flushed_append, if_pos hnbo, List.append_nil]; exact hfl
    · intro o' q vs hne hq; exact hq.frame (fun e => hne e.symm)
    · exact ⟨[nb], rfl, fun b hb => by rw [List.mem_singleton.mp hb]; exact ⟨rfl, hpay⟩, by simp [hp]⟩

theorem flushTo_spec {bs : List Blk} {o : Nat} {p : Poster} {vals : List UInt32} (h : PosterRep bs o p vals)
    (hwf : ∀ b ∈ bs, b.WF) (hs : p.posts.length ≤ 522) :
    ∃ p' bs', p.flushTo (render 0 bs) = .ok (p', render 0 bs') ∧ (∀ b ∈ bs', b.WF) ∧
      PosterRep bs' o p' vals ∧ p'.posts = [] ∧
      (∀ o' q vs, o' ≠ o → PosterRep bs o' q vs → PosterRep bs' o' q vs) ∧ (∃ ex, bs' = bs ++ ex ∧ ∀ b ∈ ex, b.owner = o) := by
  obtain ⟨p', bs', h1, h2, h3, h4, h5, ex, e1, e2, _⟩ := flushTo_exact h hwf hs
  exact ⟨p', bs', h1, h2, h3, h4, h5, ex, e1, fun b hb => (e2 b hb).1⟩

theorem u32_toNat_zero {x : UInt32} : x = 0 ↔ x.toNat = 0 := by
  constructor
  · intro h; subst h; rfl
  · intro h; apply UInt32.toNat_inj.mp; simpa using h

theorem getLast?_eq_iff (l : List UInt32) (v : UInt32) : l.getLast? = some v ↔ l.getLastD 0 = v ∧ l ≠ [] := by
  cases l with
  | nil => simp
  | cons a l => simp [List.getLast?_cons, List.getLastD_eq_getLast?]

/-- blocks written while posts are added are full -/
theorem addPost_exact {bs : List Blk} {o : Nat} {p : Poster} {vals : List UInt32} (v : UInt32) (h : PosterRep bs o p vals)
    (hwf : ∀ b ∈ bs, b.WF) (hs : p.posts.length < 512)
    (hlen : (if vals.getLast? = some v then vals else vals ++ [v]).length < 2 ^ 32) :
    ∃ p' bs', p.addPost v (render 0 bs) = .ok (p', render 0 bs') ∧ (∀ b ∈ bs', b.WF) ∧
      PosterRep bs' o p' (if vals.getLast? = some v then vals else vals ++ [v]) ∧ p'.posts.length < 512 ∧
      (∀ o' q vs, o' ≠ o → PosterRep bs o' q vs → PosterRep bs' o' q vs) ∧ (∃ ex, bs' = bs ++ ex ∧ (∀ b ∈ ex, b.owner = o ∧ 512 ≤ b.payload.length)) := by
  unfold Poster.addPost
  have hiff : (p.current = v ∧ p.total ≠ 0) ↔ vals.getLast? = some v := by
    rw [getLast?_eq_iff, h.current, ne_eq, u32_toNat_zero, h.total]
    simp
  by_cases hc : vals.getLast? = some v
  · rw [if_pos (hiff.mpr hc), if_pos hc]
    exact ⟨p, bs, rfl, hwf, h, hs, fun _ _ _ _ h => h, [], by simp, by simp⟩
  · rw [if_neg (fun e => hc (hiff.mp e))]
    simp only [hc, if_false] at hlen ⊢
    have hd : (putUvarint (v - p.current).toNat).length ≤ 5 := putUvarint_length_u32 (v - p.current).toNat_lt
    have hrep : PosterRep bs o { p with current := v, total := p.total + 1, posts := p.posts ++ putUvarint (v - p.current).toNat } (vals ++ [v]) := by
      refine ⟨h.head, h.link, ?_, by simp, ?_⟩
      · obtain ⟨ds, h1, h2⟩ := h.pend
        refine ⟨ds ++ [v - p.current], ?_, ?_⟩
        · simp only [h1, encDeltas_append]; simp [encDeltas]
        · rw [deltasFrom_snoc, ← List.append_assoc, h2, h.current]
      · simp only [UInt32.toNat_add, h.total]
        simp at hlen ⊢; omega
    split
    · obtain ⟨p', bs', h1, h2, h3, h4, h5, h6⟩ := flushTo_exact hrep hwf (by simp; omega)
      obtain ⟨ex, e1, e2, _⟩ := h6
      exact ⟨p', bs', h1, h2, h3, by simp [h4], h5, ex, e1, fun b hb => ⟨(e2 b hb).1, by rw [(e2 b hb).2]; assumption⟩⟩
    · rename_i hlt
      exact ⟨_, bs, rfl, hwf, hrep, by simpa using hlt, fun _ _ _ _ h => h, [], by simp, by simp⟩

theorem addPost_spec {bs : List Blk} {o : Nat} {p : Poster} {vals : List UInt32} (v : UInt32) (h : PosterRep bs o p vals)
    (hwf : ∀ b ∈ bs, b.WF) (hs : p.posts.length < 512)
    (hlen : (if vals.getLast? = some v then vals else vals ++ [v]).length < 2 ^ 32) :
    ∃ p' bs', p.addPost v (render 0 bs) = .ok (p', render 0 bs') ∧ (∀ b ∈ bs', b.WF) ∧
      PosterRep bs' o p' (if vals.getLast? = some v then vals else vals ++ [v]) ∧ p'.posts.length < 512 ∧
      (∀ o' q vs, o' ≠ o → PosterRep bs o' q vs → PosterRep bs' o' q vs) ∧ (∃ ex, bs' = bs ++ ex ∧ ∀ b ∈ ex, b.owner = o) := by
  obtain ⟨p', bs', h1, h2, h3, h4, h5, ex, e1, e2⟩ := addPost_exact v h hwf hs hlen
  exact ⟨p', bs', h1, h2, h3, h4, h5, ex, e1, fun b hb => (e2 b hb).1⟩

/-- the shard indexer `x` of `n` buckets, whose file has the blocks `bs`, holds `vals b` in each bucket `b` -/
def ShardOn (bs : List Blk) (n : Nat) (x : ShardIndexer) (vals : Nat → List UInt32) : Prop :=
  x.file = render 0 bs ∧ (∀ b ∈ bs, b.WF) ∧ (∀ b ∈ bs, b.owner < n) ∧ x.ind.length = n ∧
    ∀ (o : Nat) p, x.ind[o]? = some p → PosterRep bs o p (vals o) ∧ p.posts.length < 512

/-- the shard indexer `x` of `n` buckets holds `vals b` in each bucket `b` -/
def ShardRep (n : Nat) (x : ShardIndexer) (vals : Nat → List UInt32) : Prop := ∃ bs, ShardOn bs n x vals

theorem initCreate_rep (n : Nat) : ShardRep n (ShardIndexer.initCreate n) (fun _ => []) := by
  refine ⟨[], rfl, by simp, by simp, by simp [ShardIndexer.initCreate], ?_⟩
  intro o p hp
  simp only [ShardIndexer.initCreate, List.getElem?_replicate] at hp
  split at hp
  · injection hp with hp; subst hp
    exact ⟨⟨rfl, rfl, ⟨[], by simp [Poster.initCommon, encDeltas], by simp [flushed, deltasFrom]⟩, rfl, rfl⟩, by simp [Poster.initCommon]⟩
  · simp at hp

/-- `vals` after a post -/
def pushVal (vals : Nat → List UInt32) (d : UInt32) (b : Nat) : Nat → List UInt32 := fun o =>
  if b = o then (if (vals o).getLast? = some d then vals o else vals o ++ [d]) else vals o

theorem ShardOn.add_exact {bs : List Blk} {n : Nat} {x : ShardIndexer} {vals : Nat → List UInt32} (h : ShardOn bs n x vals) (d : UInt32) (b : Nat)
    (hb : b < n) (hlen : (pushVal vals d b b).length < 2 ^ 32) :
    ∃ x' ex, x.add d b = .ok x' ∧ ShardOn (bs ++ ex) n x' (pushVal vals d b) ∧ ∀ c ∈ ex, c.owner = b ∧ 512 ≤ c.payload.length := by
  obtain ⟨hf, hwf, how, hn, hp⟩ := h
  have hb' : b < x.ind.length := by omega
  have hget : x.ind[b]? = some x.ind[b] := List.getElem?_eq_getElem hb'
  obtain ⟨hrep, hs⟩ := hp b _ hget
  have hpv : pushVal vals d b b = if (vals b).getLast? = some d then vals b else vals b ++ [d] := by simp [pushVal]
  rw [hpv] at hlen
  obtain ⟨p', bs', h1, h2, h3, h4, h5, ex, e1, e2⟩ := addPost_exact d hrep hwf hs hlen
  subst e1
  refine ⟨⟨x.ind.set b p', render 0 (bs ++ ex)⟩, ex, ?_, ⟨rfl, h2, ?_, by simp [hn], ?_⟩, e2⟩
  · simp [ShardIndexer.add, hget, hf, h1, bind, Except.bind, pure, Except.pure]
  · intro c hc
    rcases List.mem_append.mp hc with e | e
    · exact how c e
    · have := (e2 c e).1; omega
  · intro o p ho
    simp only [List.getElem?_set] at ho
    by_cases e : b = o
    · subst e
      simp only [hb', if_true] at ho
      injection ho with ho; subst ho
      rw [hpv]; exact ⟨h3, h4⟩
    · simp only [e, if_false] at ho
      simp only [pushVal, e, if_false]
      exact ⟨h5 o p _ (fun h => e h.symm) (hp o p ho).1, (hp o p ho).2⟩

theorem ShardOn.add {bs : List Blk} {n : Nat} {x : ShardIndexer} {vals : Nat → List UInt32} (h : ShardOn bs n x vals) (d : UInt32) (b : Nat)
    (hb : b < n) (hlen : (pushVal vals d b b).length < 2 ^ 32) :
    ∃ x' ex, x.add d b = .ok x' ∧ ShardOn (bs ++ ex) n x' (pushVal vals d b) ∧ ∀ c ∈ ex, c.owner = b := by
  obtain ⟨x', ex, h1, h2, h3⟩ := h.add_exact d b hb hlen
  exact ⟨x', ex, h1, h2, fun c hc => (h3 c hc).1⟩

theorem ShardRep.add {n : Nat} {x : ShardIndexer} {vals : Nat → List UInt32} (h : ShardRep n x vals) (d : UInt32) (b : Nat)
    (hb : b < n) (hlen : (pushVal vals d b b).length < 2 ^ 32) :
    ∃ x', x.add d b = .ok x' ∧ ShardRep n x' (pushVal vals d b) := by
  obtain ⟨bs, h⟩ := h
  obtain ⟨x', ex, h1, h2, _⟩ := h.add d b hb hlen
  exact ⟨x', h1, _, h2⟩

theorem ShardIndexer.addAll_append (x : ShardIndexer) (a b : List (UInt32 × Nat)) :
    x.addAll (a ++ b) = (x.addAll a).bind fun y => y.addAll b := by
  induction a generalizing x with
  | nil => rfl
  | cons p a ih =>
    obtain ⟨d, c⟩ := p
    simp only [List.cons_append, addAll, bind, Except.bind]
    cases x.add d c with
    | error e => rfl
    | ok y => exact ih y

theorem pushVal_postings (posts : List (UInt32 × Nat)) (d : UInt32) (b : Nat) :
    pushVal (postings posts) d b = postings (posts ++ [(d, b)]) := by
  funext o
  rw [postings_snoc]; rfl

theorem postings_mono (p q : List (UInt32 × Nat)) (b : Nat) : (postings p b).length ≤ (postings (p ++ q) b).length := by
  induction q using snocInd with
  | nil => simp
  | snoc q a ih =>
    obtain ⟨d, c⟩ := a
    rw [← List.append_assoc, postings_snoc]
    split
    · split
      · exact ih
      · simp; omega
    · exact ih

/-- The shard's indexer after any posts represents exactly their posting lists. -/
theorem ShardRep.addAll {n : Nat} {x : ShardIndexer} {old : List (UInt32 × Nat)} (h : ShardRep n x (postings old))
    (posts : List (UInt32 × Nat)) (hb : ∀ q ∈ posts, q.2 < n)
    (hlen : ∀ b, (postings (old ++ posts) b).length < 2 ^ 32) :
    ∃ x', x.addAll posts = .ok x' ∧ ShardRep n x' (postings (old ++ posts)) := by
  induction posts using snocInd with
  | nil => exact ⟨x, rfl, by simpa using h⟩
  | snoc posts a ih =>
    obtain ⟨d, b⟩ := a
    rw [← List.append_assoc] at hlen ⊢
    obtain ⟨y, hy, hrep⟩ := ih (fun q hq => hb q (by simp [hq]))
      (fun b => Nat.lt_of_le_of_lt (postings_mono _ _ _) (hlen b))
    obtain ⟨z, hz, hzr⟩ := hrep.add d b (hb (d, b) (by simp)) (by rw [pushVal_postings]; exact hlen b)
    rw [pushVal_postings] at hzr
    refine ⟨z, ?_, hzr⟩
    rw [ShardIndexer.addAll_append, hy]
    simp [Except.bind, ShardIndexer.addAll, hz, bind]

/-! ### Closing and reopening -/

/-- a closed shard: everything flushed -/
structure ClosedRep (n : Nat) (bs : List Blk) (ps : List Poster) (vals : Nat → List UInt32) : Prop where
  wf : ∀ b ∈ bs, b.WF
  owner : ∀ b ∈ bs, b.owner < n
  len : ps.length = n
  rep : ∀ (o : Nat) p, ps[o]? = some p → PosterRep bs o p (vals o) ∧ p.posts = []

/-- closing writes at most one block for each bucket, and none if nothing is pending -/
theorem flushInd_exact (vals : Nat → List UInt32) (ps : List Poster) : ∀ (done : List Poster) (bs : List Blk),
    (∀ b ∈ bs, b.WF) → (∀ b ∈ bs, b.owner < (done ++ ps).length) → (∀ (o : Nat) p, (done ++ ps)[o]? = some p → PosterRep bs o p (vals o) ∧ p.posts.length < 512) →
    (∀ p ∈ done, p.posts = []) →
    ∃ ps' bs', ShardIndexer.flushInd ps (render 0 bs) = .ok (ps', render 0 bs') ∧
      ClosedRep (done ++ ps).length bs' (done ++ ps') vals ∧
      ∃ ex, bs' = bs ++ ex ∧ ∀ o, (ex.filter (·.owner = o)).length ≤
        (if done.length ≤ o ∧ ∃ p, ps[o - done.length]? = some p ∧ p.posts ≠ [] then 1 else 0) := by
  induction ps with
  | nil =>
    intro done bs hwf how hrep hd
    refine ⟨[], bs, rfl, ⟨hwf, how, by simp, ?_⟩, [], by simp, by simp⟩
    intro o p hp
    exact ⟨(hrep o p hp).1, hd p (by simpa using List.mem_of_getElem? hp)⟩
  | cons p ps ih =>
    intro done bs hwf how hrep hd
    have hp : (done ++ p :: ps)[done.length]? = some p := by simp
    obtain ⟨hr, hs⟩ := hrep _ p hp
    obtain ⟨p', bs', h1, h2, h3, h4, h5, h5'⟩ := flushTo_exact hr hwf (by omega)
    have hset : ∀ (o : Nat) q, (done ++ [p'] ++ ps)[o]? = some q → PosterRep bs' o q (vals o) ∧ q.posts.length < 512 := by
      intro o q hq
      by_cases e : o = done.length
      · subst e
        have : q = p' := by simpa using hq.symm
        subst this
        exact ⟨h3, by simp [h4]⟩
      · have hq' : (done ++ p :: ps)[o]? = some q := by
          rw [← hq]
          by_cases hlt : o < done.length
          · rw [List.append_assoc, List.getElem?_append_left hlt, List.getElem?_append_left hlt]
          · have : done.length < o := by omega
            rw [List.append_assoc, List.getElem?_append_right (by omega), List.getElem?_append_right (by omega)]
            obtain ⟨k, hk⟩ : ∃ k, o - done.length = k + 1 := ⟨o - done.length - 1, by omega⟩
            simp [hk]
        exact ⟨h5 o q _ e (hrep o q hq').1, (hrep o q hq').2⟩
    obtain ⟨ps', bs'', h6, h7, ex', e3, e4⟩ := ih (done ++ [p']) bs' h2 (by
      intro b hb
      obtain ⟨ex, e1, e2, _⟩ := h5'
      rw [e1] at hb
      rcases List.mem_append.mp hb with e | e
      · simpa using how b e
      · have := (e2 b e).1; simp; omega) hset (by
      intro q hq
      rcases List.mem_append.mp hq with hq | hq
      · exact hd q hq
      · rw [List.mem_singleton.mp hq]; exact h4)
    obtain ⟨ex, e1, e2, e5⟩ := h5'
    refine ⟨p' :: ps', bs'', ?_, ?_, ex ++ ex', by rw [e3, e1]; simp, ?_⟩
    · simp [ShardIndexer.flushInd, h1, h6, bind, Except.bind, pure, Except.pure]
    · simpa using h7
    · intro o
      have h8 := e4 o
      rw [List.filter_append, List.length_append]
      by_cases e : o = done.length
      · subst e
        rw [if_neg (by simp; omega)] at h8
        have h9 : (ex.filter (·.owner = done.length)).length ≤ ex.length := List.length_filter_le _ _
        rw [e5] at h9
        by_cases hp0 : p.posts = []
        · rw [if_pos hp0] at h9; omega
        · rw [if_neg hp0] at h9
          rw [if_pos ⟨Nat.le_refl _, p, by simp, hp0⟩]; omega
      · have h9 : ex.filter (·.owner = o) = [] := by
          rw [List.filter_eq_nil_iff]
          intro b hb
          simp only [(e2 b hb).1, decide_eq_true_eq]; exact fun h => e h.symm
        rw [h9, List.length_nil, Nat.zero_add]
        refine Nat.le_trans h8 ?_
        by_cases hc : (done ++ [p']).length ≤ o ∧ ∃ q, ps[o - (done ++ [p']).length]? = some q ∧ q.posts ≠ []
        · rw [if_pos hc]
          obtain ⟨hc1, q, hc2, hc3⟩ := hc
          rw [List.length_append, List.length_singleton] at hc1 hc2
          have hc4 : (p :: ps)[o - done.length]? = some q := by
            rw [show o - done.length = (o - (done.length + 1)) + 1 by omega, List.getElem?_cons_succ]; exact hc2
          rw [if_pos ⟨by omega, q, hc4, hc3⟩]
          exact Nat.le_refl _
        · rw [if_neg hc]; exact Nat.zero_le _

theorem flushInd_spec (vals : Nat → List UInt32) (ps : List Poster) : ∀ (done : List Poster) (bs : List Blk),
    (∀ b ∈ bs, b.WF) → (∀ b ∈ bs, b.owner < (done ++ ps).length) → (∀ (o : Nat) p, (done ++ ps)[o]? = some p → PosterRep bs o p (vals o) ∧ p.posts.length < 512) →
    (∀ p ∈ done, p.posts = []) →
    ∃ ps' bs', ShardIndexer.flushInd ps (render 0 bs) = .ok (ps', render 0 bs') ∧
      ClosedRep (done ++ ps).length bs' (done ++ ps') vals := by
  intro done bs h1 h2 h3 h4
  obtain ⟨ps', bs', g1, g2, _⟩ := flushInd_exact vals ps done bs h1 h2 h3 h4
  exact ⟨ps', bs', g1, g2⟩

theorem ShardRep.close {n : Nat} {x : ShardIndexer} {vals : Nat → List UInt32} (h : ShardRep n x vals) :
    ∃ ps bs, x.close = .ok ⟨render 0 bs, ps.flatMap ShardIndexer.iixEntry⟩ ∧ ClosedRep n bs ps vals := by
  obtain ⟨bs, hf, hwf, how, hn, hp⟩ := h
  obtain ⟨ps', bs', h1, h2⟩ := flushInd_spec vals x.ind [] bs hwf (by simpa [hn] using how) (by simpa using hp) (by simp)
  refine ⟨ps', bs', ?_, ?_⟩
  · simp [ShardIndexer.close, hf, h1, bind, Except.bind, pure, Except.pure]
  · simpa [hn] using h2

theorem PosterRep.headBound {bs : List Blk} {o : Nat} {p : Poster} {vals : List UInt32} (h : PosterRep bs o p vals)
    (hl : (render 0 bs).length < 2 ^ 63) : -(2 ^ 63) ≤ p.head ∧ p.head < 2 ^ 63 := by
  rw [h.head]
  have := nextOff_lt o bs 0
  rw [render_length] at hl
  rcases nextOff_ge o bs 0 with e | e <;> constructor <;> omega

theorem readUvarintLax_of (r : Bytes) : ∀ (i x : Nat) v r', readUvarintLoop r i x = .ok (v, r') → Poster.readUvarintLax r i x = (v, r') := by
  induction r with
  | nil => intro i x v r' h; unfold readUvarintLoop at h; split at h <;> cases h
  | cons b r ih =>
    intro i x v r' h
    unfold readUvarintLoop at h
    unfold Poster.readUvarintLax
    split at h
    · cases h
    · rename_i hi
      rw [if_neg hi]
      simp only [] at h ⊢
      split at h
      · rename_i hb
        rw [if_pos hb]
        split at h
        · cases h
        · rename_i hc
          rw [if_neg hc]
          injection h
      · rename_i hb
        rw [if_neg hb]
        exact ih _ _ _ _ h

theorem readVarintLax_of {r r' : Bytes} {v : Int} (h : readVarint r = .ok (v, r')) : Poster.readVarintLax r = (v, r') := by
  unfold readVarint readUvarint at h
  cases hu : readUvarintLoop r 0 0 with
  | error e => simp [hu, bind, Except.bind] at h
  | ok q =>
    obtain ⟨ux, g⟩ := q
    simp only [hu, bind, Except.bind, pure, Except.pure, Except.ok.injEq, Prod.mk.injEq] at h
    obtain ⟨rfl, rfl⟩ := h
    simp only [Poster.readVarintLax, readUvarintLax_of r 0 0 ux g hu]

theorem initAppend_entry {bs : List Blk} {o : Nat} {p : Poster} {vals : List UInt32} (h : PosterRep bs o p vals)
    (hl : (render 0 bs).length < 2 ^ 63) (hp : p.posts = []) (r : Bytes) :
    Poster.initAppend (ShardIndexer.iixEntry p ++ r) = .ok ({ p with link := -1 }, r) := by
  obtain ⟨h1, h2⟩ := h.headBound hl
  have ht := p.total.toNat_lt
  unfold Poster.initAppend ShardIndexer.iixEntry
  rw [List.append_assoc, List.append_assoc, readVarint_put _ _ h1 h2]
  simp only [bind, Except.bind]
  rw [readVarintLax_of (readVarint_put _ _ (by omega) (by omega))]
  simp only []
  rw [if_neg (by omega)]
  have hbe : be32 p.current ++ r = (p.current >>> 24).toUInt8 :: (p.current >>> 16).toUInt8 :: (p.current >>> 8).toUInt8 :: p.current.toUInt8 :: r := rfl
  rw [hbe]
  simp only [Poster.read4, readByte, bind, Except.bind, pure, Except.pure]
  have := getBE32_be32 p.current []
  simp only [be32, List.append_nil] at this
  rw [this]
  cases p
  simp_all

theorem readIix_spec (bs : List Blk) (hl : (render 0 bs).length < 2 ^ 63) (vals : Nat → List UInt32) (ps : List Poster) : ∀ k,
    (∀ (o : Nat) p, ps[o]? = some p → PosterRep bs (o + k) p (vals (o + k)) ∧ p.posts = []) →
    ShardIndexer.readIix ps.length (ps.flatMap ShardIndexer.iixEntry) = .ok (ps.map fun p => { p with link := -1 }) := by
  induction ps with
  | nil => intro k _; rfl
  | cons p ps ih =>
    intro k h
    obtain ⟨h1, h2⟩ := h 0 p rfl
    simp only [List.length_cons, ShardIndexer.readIix, List.flatMap_cons, initAppend_entry h1 hl h2, bind, Except.bind]
    rw [ih (k + 1) (fun o q hq => by
      have := h (o + 1) q (by simpa using hq)
      rwa [Nat.add_assoc, Nat.add_comm 1 k] at this)]
    rfl

theorem readToLink_spec {bs : List Blk} {o : Nat} {p : Poster} {vals : List UInt32} (h : PosterRep bs o p vals)
    (hwf : ∀ b ∈ bs, b.WF) (hl : (render 0 bs).length < 2 ^ 63) :
    Poster.readToLink { p with link := -1 } (render 0 bs) = .ok p := by
  unfold Poster.readToLink
  simp only []
  by_cases hh : p.head = -1
  · rw [if_pos hh]
    have : p.link = -1 := by rw [h.link, lastLink_none, ← h.head]; exact hh
    rw [← this]
  · rw [if_neg hh, if_neg (by simp)]
    rw [h.head] at hh
    have hbl : bs.length ≤ (render 0 bs).length + 1 := by
      rw [render_length]
      have : ∀ bs : List Blk, bs.length ≤ sizes bs := by
        intro bs
        induction bs with
        | nil => simp
        | cons b bs ih => rw [sizes_cons, List.length_cons]; unfold Blk.size; omega
      have := this bs
      omega
    have := readToLinkLoop_spec o (render 0 bs) hl ((render 0 bs).length + 1) bs [] hbl (by simp) hwf hh
    simp only [List.length_nil] at this
    rw [h.head, this]
    simp only [bind, Except.bind, pure, Except.pure, ← h.link]
    cases p
    have := h.head
    simp_all

theorem readLinks_spec (bs : List Blk) (hwf : ∀ b ∈ bs, b.WF) (hl : (render 0 bs).length < 2 ^ 63) (vals : Nat → List UInt32) (ps : List Poster) : ∀ k,
    (∀ (o : Nat) p, ps[o]? = some p → PosterRep bs (o + k) p (vals (o + k))) →
    ShardIndexer.readLinks (render 0 bs) (ps.map fun p => { p with link := -1 }) = .ok ps := by
  induction ps with
  | nil => intro k _; rfl
  | cons p ps ih =>
    intro k h
    have h1 := h 0 p rfl
    simp only [List.map_cons, ShardIndexer.readLinks, readToLink_spec h1 hwf hl, bind, Except.bind]
    rw [ih (k + 1) (fun o q hq => by
      have := h (o + 1) q (by simpa using hq)
      rwa [Nat.add_assoc, Nat.add_comm 1 k] at this)]
    rfl

/-- Reopening gives back exactly the state at closing. -/
theorem ClosedRep.reopen {n : Nat} {bs : List Blk} {ps : List Poster} {vals : Nat → List UInt32} (h : ClosedRep n bs ps vals)
    (hl : (render 0 bs).length < 2 ^ 63) :
    ShardIndexer.initAppend n ⟨render 0 bs, ps.flatMap ShardIndexer.iixEntry⟩ = .ok ⟨ps, render 0 bs⟩ := by
  unfold ShardIndexer.initAppend
  rw [← h.len]
  simp only [readIix_spec bs hl vals ps 0 (by simpa using h.rep), bind, Except.bind]
  rw [readLinks_spec bs h.wf hl vals ps 0 (fun o p hp => (h.rep o p hp).1)]
  rfl

theorem ClosedRep.shardRep {n : Nat} {bs : List Blk} {ps : List Poster} {vals : Nat → List UInt32} (h : ClosedRep n bs ps vals) :
    ShardRep n ⟨ps, render 0 bs⟩ vals :=
  ⟨bs, rfl, h.wf, h.owner, h.len, fun o p hp => ⟨(h.rep o p hp).1, by simp [(h.rep o p hp).2]⟩⟩

/-! ### Reading -/

theorem index_readIix_spec (bs : List Blk) (hl : (render 0 bs).length < 2 ^ 63) (vals : Nat → List UInt32) (ps : List Poster) : ∀ k,
    (∀ (o : Nat) p, ps[o]? = some p → PosterRep bs (o + k) p (vals (o + k)) ∧ p.posts = []) →
    ShardIndex.readIix ps.length (ps.flatMap ShardIndexer.iixEntry) = .ok (ps.map fun p => (p.head, p.total)) := by
  induction ps with
  | nil => intro k _; rfl
  | cons p ps ih =>
    intro k h
    obtain ⟨h1, h2⟩ := h 0 p rfl
    obtain ⟨hb1, hb2⟩ := h1.headBound hl
    have ht := p.total.toNat_lt
    simp only [List.length_cons, ShardIndex.readIix, List.flatMap_cons, ShardIndexer.iixEntry, List.append_assoc]
    rw [readVarint_put _ _ hb1 hb2]
    simp only [bind, Except.bind]
    rw [readVarint_put _ _ (by omega) (by omega)]
    simp only []
    rw [if_neg (by omega)]
    have : readFull (be32 p.current ++ ps.flatMap ShardIndexer.iixEntry) 4 = .ok (be32 p.current, ps.flatMap ShardIndexer.iixEntry) := by
      unfold readFull
      rw [if_pos (by simp [be32_length])]
      rw [← be32_length p.current, List.take_left, List.drop_left]
    rw [this]
    simp only []
    rw [ih (k + 1) (fun o q hq => by
      have := h (o + 1) q (by simpa using hq)
      rwa [Nat.add_assoc, Nat.add_comm 1 k] at this)]
    simp [pure, Except.pure]

/-- What an open shard index is, in terms of the posting lists it should deliver. -/
structure IndexRep (srt : Sorter) (n : Nat) (x : ShardIndex) (vals : Nat → List UInt32) : Prop where
  lenH : x.heads.length = n
  lenC : x.counts.length = n
  counts : ∀ b, b < n → (x.counts.getD b 0).toNat = (vals b).length
  perm : x.perm = srt x.counts
  posts : ∀ (b : Nat) h, x.heads[b]? = some h → PostsRep x.file (Posts.new h) (vals b)

theorem ClosedRep.index {n : Nat} {bs : List Blk} {ps : List Poster} {vals : Nat → List UInt32} (h : ClosedRep n bs ps vals)
    (hl : (render 0 bs).length < 2 ^ 63) (srt : Sorter) :
    ∃ x, ShardIndex.init srt n ⟨render 0 bs, ps.flatMap ShardIndexer.iixEntry⟩ = .ok x ∧ IndexRep srt n x vals ∧ x.id = 0 := by
  unfold ShardIndex.init
  rw [← h.len]
  simp only [index_readIix_spec bs hl vals ps 0 (by simpa using h.rep), bind, Except.bind, pure, Except.pure]
  refine ⟨_, rfl, ⟨by simp, by simp, ?_, rfl, ?_⟩, rfl⟩
  · intro b hb
    have hget : ps[b]? = some ps[b] := List.getElem?_eq_getElem hb
    have := (h.rep b _ hget).1.total
    simp [List.getD_eq_getElem?_getD, hget, this]
  · intro b hd hh
    simp only [List.map_map, List.getElem?_map, Option.map_eq_some_iff] at hh
    obtain ⟨p, hp, rfl⟩ := hh
    obtain ⟨hr, hpe⟩ := h.rep b p hp
    obtain ⟨ds, h1, h2⟩ := hr.pend
    have hds : ds = [] := by
      false_or_by_contra
      rename_i hne
      exact encDeltas_ne hne (by rw [← h1]; exact hpe)
    rw [hds, List.append_nil] at h2
    have := PostsRep.new (o := b) h.wf hl
    rw [h2, runSum_deltasFrom, ← hr.head] at this
    exact this

/-! ### How large the file gets -/

theorem sum_indicator (k a : Nat) : ∀ n, ((List.range n).map fun o => if k = o then a else 0).sum = if k < n then a else 0 := by
  intro n
  induction n with
  | zero => simp
  | succ n ih =>
    rw [List.range_succ, List.map_append, List.sum_append, ih]
    by_cases h : k < n
    · have : k ≠ n := by omega
      simp [h, this]; omega
    · by_cases e : k = n
      · simp [e]
      · have : ¬ k < n + 1 := by omega
        simp [h, e, this]

theorem sum_map_zero {α : Type} (l : List α) : (l.map fun _ => 0).sum = 0 := by
  induction l with
  | nil => rfl
  | cons a l ih => simp [ih]

theorem sum_map_add {α : Type} (l : List α) (f g : α → Nat) : (l.map fun x => f x + g x).sum = (l.map f).sum + (l.map g).sum := by
  induction l with
  | nil => rfl
  | cons a l ih => simp [ih]; omega

theorem sum_map_le {α : Type} (l : List α) (f g : α → Nat) (h : ∀ x ∈ l, f x ≤ g x) : (l.map f).sum ≤ (l.map g).sum := by
  induction l with
  | nil => simp
  | cons a l ih =>
    have := ih (fun x hx => h x (by simp [hx]))
    have := h a (by simp)
    simp; omega

theorem sum_flushed (n : Nat) (bs : List Blk) (h : ∀ b ∈ bs, b.owner < n) :
    ((List.range n).map fun o => (flushed o bs).length).sum = (bs.map fun b => b.deltas.length).sum := by
  induction bs with
  | nil => simp [flushed, sum_map_zero]
  | cons b bs ih =>
    have e : ∀ o, (flushed o (b :: bs)).length = (if b.owner = o then b.deltas.length else 0) + (flushed o bs).length := by
      intro o
      by_cases hb : b.owner = o <;> simp [flushed, hb]
    simp only [e]
    rw [sum_map_add, sum_indicator, if_pos (h b (by simp)), ih (fun c hc => h c (by simp [hc]))]
    simp

theorem sum_postings (n : Nat) (posts : List (UInt32 × Nat)) :
    ((List.range n).map fun o => (postings posts o).length).sum ≤ posts.length := by
  induction posts using snocInd with
  | nil => simp [postings, compress, sum_map_zero]
  | snoc posts a ih =>
    obtain ⟨d, c⟩ := a
    have : ((List.range n).map fun o => (postings (posts ++ [(d, c)]) o).length).sum ≤
        ((List.range n).map fun o => (if c = o then 1 else 0) + (postings posts o).length).sum := by
      apply sum_map_le
      intro o _
      rw [postings_snoc]
      by_cases e : c = o
      · simp only [e, if_true]; split <;> simp <;> omega
      · simp [e]
    rw [sum_map_add, sum_indicator] at this
    have h1 : (if c < n then 1 else 0) ≤ 1 := by split <;> omega
    simp; omega

theorem encDeltas_length_le (ds : List UInt32) : (encDeltas ds).length ≤ 5 * ds.length := by
  induction ds with
  | nil => simp [encDeltas]
  | cons d ds ih =>
    rw [encDeltas_cons]
    have := putUvarint_length_u32 d.toNat_lt
    simp; omega

theorem deltasFrom_length (c : UInt32) (vals : List UInt32) : (deltasFrom c vals).length = vals.length := by
  induction vals generalizing c with
  | nil => rfl
  | cons v vs ih => simp [deltasFrom, ih]

theorem sizes_le (bs : List Blk) (h : ∀ b ∈ bs, b.WF) : sizes bs ≤ 23 * (bs.map fun b => b.deltas.length).sum := by
  induction bs with
  | nil => simp [sizes]
  | cons b bs ih =>
    have h1 := ih (fun c hc => h c (by simp [hc]))
    have hb := h b (by simp)
    have h2 : b.payload.length ≤ 5 * b.deltas.length := encDeltas_length_le _
    have h3 : b.hdr.length ≤ 10 := by
      have := hb.small
      exact putUvarint_length_u64 (zigzag_lt _ (by omega) (by omega))
    have h4 := List.length_pos_iff.mpr hb.ne
    rw [sizes_cons, List.map_cons, List.sum_cons]
    unfold Blk.size; omega

theorem ClosedRep.size {n : Nat} {bs : List Blk} {ps : List Poster} {posts : List (UInt32 × Nat)}
    (h : ClosedRep n bs ps (postings posts)) : (render 0 bs).length ≤ 23 * posts.length := by
  rw [render_length]
  have h1 := sizes_le bs h.wf
  rw [← sum_flushed n bs h.owner] at h1
  have h2 : ((List.range n).map fun o => (flushed o bs).length).sum ≤ ((List.range n).map fun o => (postings posts o).length).sum := by
    apply sum_map_le
    intro o ho
    have hlt : o < ps.length := by rw [h.len]; exact List.mem_range.mp ho
    obtain ⟨ds, _, h2⟩ := (h.rep o _ (List.getElem?_eq_getElem hlt)).1.pend
    have := congrArg List.length h2
    rw [deltasFrom_length, List.length_append] at this
    omega
  have h3 := sum_postings n posts
  omega

end Dupi
