import Verif.Proof.FaultsRead
import Verif.Proof.CrashRun
/-! # A shard some of whose system calls failed -/

namespace Dupi
open Spec

theorem addPostF_spec {f : Bytes} {L : List PBlk} (h : Laid f L) {o : Nat} {p : Poster} {vals : List UInt32} {br : Bool} (hr : FRep br f L o p vals) (v : UInt32)
    (hlen : (if vals.getLast? = some v then vals else vals ++ [v]).length < 2 ^ 32)
    {φ φ' : Fates} {ok : Bool} {p' : Poster} {f' : Bytes} (hF : p.addPostF v f φ = (ok, p', f', φ')) :
    ∃ L', FStep f L o f' L' ∧ FRep br f' L' o p' (if vals.getLast? = some v then vals else vals ++ [v]) := by
  unfold Poster.addPostF at hF
  have hiff : (p.current = v ∧ p.total ≠ 0) ↔ vals.getLast? = some v := by
    rw [getLast?_eq_iff, hr.current, ne_eq, u32_toNat_zero, hr.total]
    simp
  by_cases hc : vals.getLast? = some v
  · rw [if_pos (hiff.mpr hc)] at hF
    rw [if_pos hc]
    injection hF with e1 hF; injection hF with e2 hF; injection hF with e3 hF
    subst e1 e2 e3
    exact ⟨L, .refl h, hr⟩
  · rw [if_neg (fun e => hc (hiff.mp e))] at hF
    simp only [hc, if_false] at hlen hF ⊢
    have hne : p.posts ++ putUvarint (v - p.current).toNat ≠ [] := by
      intro e; exact putUvarint_ne_nil _ (List.append_eq_nil_iff.mp e).2
    have hrep : FRep br f L o { p with current := v, total := p.total + 1, posts := p.posts ++ putUvarint (v - p.current).toNat } (vals ++ [v]) := by
      refine ⟨hr.link, hr.head, fun _ e => absurd e hne, hr.bound, hr.linked, fun e => absurd e hne, by simp, ?_, ?_⟩
      · simp only [UInt32.toNat_add, hr.total]
        simp at hlen ⊢; omega
      · rw [deltasFrom_snoc, ← hr.current]
        exact hr.content.push _
    split at hF
    · obtain ⟨L', h1, h2, _⟩ := flushF_spec h hrep hF
      exact ⟨L', h1, h2⟩
    · injection hF with e1 hF; injection hF with e2 hF; injection hF with e3 hF
      subst e1 e2 e3
      exact ⟨L, .refl h, hrep⟩

/-- the shard indexer `x` of `n` buckets was given `vals b` for each bucket `b` -/
def FShardRep (br : Nat → Bool) (n : Nat) (x : ShardIndexer) (vals : Nat → List UInt32) : Prop :=
  ∃ L, Laid x.file L ∧ (∀ b ∈ L, b.owner < n) ∧ x.ind.length = n ∧ ∀ (o : Nat) p, x.ind[o]? = some p → FRep (br o) x.file L o p (vals o)

theorem FShardRep.add {br : Nat → Bool} {n : Nat} {s : FShard} {vals : Nat → List UInt32} (h : FShardRep br n s.x vals) (d : UInt32) (b : Nat)
    (hb : b < n) (hlen : (pushVal vals d b b).length < 2 ^ 32) :
    ∃ s', s.add d b = .ok s' ∧ FShardRep br n s'.x (pushVal vals d b) := by
  obtain ⟨L, hl, how, hn, hp⟩ := h
  have hb' : b < s.x.ind.length := by omega
  have hget : s.x.ind[b]? = some s.x.ind[b] := List.getElem?_eq_getElem hb'
  have hrep := hp b _ hget
  have hpv : pushVal vals d b b = if (vals b).getLast? = some d then vals b else vals b ++ [d] := by simp [pushVal]
  rw [hpv] at hlen
  generalize hF : s.x.ind[b].addPostF d s.x.file s.fates = r
  obtain ⟨ok, p', f', φ'⟩ := r
  obtain ⟨L', h1, h2⟩ := addPostF_spec hl hrep d hlen hF
  refine ⟨⟨⟨s.x.ind.set b p', f'⟩, φ', s.logged || !ok⟩, by simp [FShard.add, hget, hF], L', h1.laid, ?_, by simp [hn], ?_⟩
  · intro c hc
    rcases h1.owners c hc with e | e
    · exact how c e
    · omega
  · intro o p ho
    simp only [List.getElem?_set] at ho
    by_cases e : b = o
    · subst e
      simp only [hb', if_true] at ho
      injection ho with ho; subst ho
      rw [hpv]; exact h2
    · simp only [e, if_false] at ho
      simp only [pushVal, e, if_false]
      exact h1.frame _ o p _ (fun h => e h.symm) (hp o p ho)

theorem FShard.addAll_append (x : FShard) (a b : List (UInt32 × Nat)) :
    x.addAll (a ++ b) = (x.addAll a).bind fun y => y.addAll b := by
  induction a generalizing x with
  | nil => rfl
  | cons p a ih =>
    obtain ⟨d, c⟩ := p
    simp only [List.cons_append, addAll, bind, Except.bind]
    cases x.add d c with
    | error e => rfl
    | ok y => exact ih y

theorem FShardRep.addAll {br : Nat → Bool} {n : Nat} {s : FShard} {old : List (UInt32 × Nat)} (h : FShardRep br n s.x (postings old))
    (posts : List (UInt32 × Nat)) (hb : ∀ q ∈ posts, q.2 < n)
    (hlen : ∀ b, (postings (old ++ posts) b).length < 2 ^ 32) :
    ∃ s', s.addAll posts = .ok s' ∧ FShardRep br n s'.x (postings (old ++ posts)) := by
  induction posts using snocInd with
  | nil => exact ⟨s, rfl, by simpa using h⟩
  | snoc posts a ih =>
    obtain ⟨d, b⟩ := a
    rw [← List.append_assoc] at hlen ⊢
    obtain ⟨y, hy, hrep⟩ := ih (fun q hq => hb q (by simp [hq]))
      (fun b => Nat.lt_of_le_of_lt (postings_mono _ _ _) (hlen b))
    obtain ⟨z, hz, hzr⟩ := hrep.add d b (hb (d, b) (by simp)) (by rw [pushVal_postings]; exact hlen b)
    rw [pushVal_postings] at hzr
    refine ⟨z, ?_, hzr⟩
    rw [FShard.addAll_append, hy]
    simp [Except.bind, FShard.addAll, hz, bind]

/-! ### Closing -/

theorem flushIndF_spec (br : Nat → Bool) (vals : Nat → List UInt32) (ps : List Poster) : ∀ (done : List Poster) {f : Bytes} {L : List PBlk} {φ φ' : Fates} {ps' : List Poster} {f' : Bytes},
    Laid f L → (∀ b ∈ L, b.owner < (done ++ ps).length) → (∀ (o : Nat) p, (done ++ ps)[o]? = some p → FRep (br o) f L o p (vals o)) →
    (∀ p ∈ done, p.posts = []) → FShard.flushIndF ps f φ = (true, ps', f', φ') →
    FShardRep br (done ++ ps).length ⟨done ++ ps', f'⟩ vals ∧ ∀ p ∈ done ++ ps', p.posts = [] := by
  induction ps with
  | nil =>
    intro done f L φ φ' ps' f' hl how hrep hd hF
    simp only [FShard.flushIndF, Prod.mk.injEq, true_and] at hF
    obtain ⟨rfl, rfl, rfl⟩ := hF
    exact ⟨⟨L, hl, how, rfl, hrep⟩, by simpa using hd⟩
  | cons p ps ih =>
    intro done f L φ φ' ps' f' hl how hrep hd hF
    have hp : (done ++ p :: ps)[done.length]? = some p := by simp
    have hr := hrep _ p hp
    simp only [FShard.flushIndF] at hF
    generalize hG : p.flushF f φ = r at hF
    obtain ⟨ok, p1, f1, φ1⟩ := r
    cases ok with
    | false => simp at hF
    | true =>
      simp only [Prod.mk.injEq] at hF
      generalize hH : FShard.flushIndF ps f1 φ1 = r at hF
      obtain ⟨ok2, ps2, f2, φ2⟩ := r
      simp only [] at hF
      obtain ⟨rfl, rfl, rfl, rfl⟩ := hF
      obtain ⟨L1, h1, h2, h3⟩ := flushF_spec hl hr hG
      have h4 := h3 rfl
      have hset : ∀ (o : Nat) q, (done ++ [p1] ++ ps)[o]? = some q → FRep (br o) f1 L1 o q (vals o) := by
        intro o q hq
        by_cases e : o = done.length
        · subst e
          have : q = p1 := by simpa using hq.symm
          subst this
          exact h2
        · have hq' : (done ++ p :: ps)[o]? = some q := by
            rw [← hq]
            by_cases hlt : o < done.length
            · rw [List.append_assoc, List.getElem?_append_left hlt, List.getElem?_append_left hlt]
            · have : done.length < o := by omega
              rw [List.append_assoc, List.getElem?_append_right (by omega), List.getElem?_append_right (by omega)]
              obtain ⟨k, hk⟩ : ∃ k, o - done.length = k + 1 := ⟨o - done.length - 1, by omega⟩
              simp [hk]
          exact h1.frame _ o q _ e (hrep o q hq')
      have := ih (done ++ [p1]) h1.laid (by
        intro b hb
        rcases h1.owners b hb with e | e
        · simpa using how b e
        · simp; omega) hset (by
        intro q hq
        rcases List.mem_append.mp hq with hq | hq
        · exact hd q hq
        · rw [List.mem_singleton.mp hq]; exact h4) hH
      simpa using this

theorem runF_true (ops : List Op) : ∀ {d d' : Dir} {φ φ' : Fates}, d.runF ops φ = (true, d', φ') → d' = d.run ops := by
  induction ops with
  | nil => intro d d' φ φ' h; simp only [Dir.runF, Prod.mk.injEq] at h; exact h.2.1.symm
  | cons op ops ih =>
    intro d d' φ φ' h
    simp only [Dir.runF] at h
    split at h
    · exact ih h
    · simp at h

theorem run_iix (d : Dir) (i : Nat) (ps : List Poster) :
    d.run (.trunc (.iix i) :: Op.writes (.iix i) 0 (ps.flatMap ShardIndexer.iixChunks)) = d.set (.iix i) (ps.flatMap ShardIndexer.iixEntry) := by
  have hon : On (.iix i) (Op.trunc (.iix i) :: Op.writes (.iix i) 0 (ps.flatMap ShardIndexer.iixChunks)) := by
    intro op hop
    rcases List.mem_cons.mp hop with rfl | hop
    · rfl
    · exact writes_on _ _ _ op hop
  funext g
  rw [run_file]
  simp only [Dir.set]
  split
  · rename_i hg
    subst hg
    rw [hon.opsOn, onFiles_trunc, iixChunks_flatten]
  · rename_i hg
    rw [(hon.off (fun e => hg e.symm)).opsOn]; rfl

/-- what a call of Close that returned nil leaves -/
theorem FShard.close_true {i : Nat} {s : FShard} {d d' : Dir} (h : s.close i d = (true, d')) :
    ∃ ps f φ, FShard.flushIndF s.x.ind s.x.file s.fates = (true, ps, f, φ) ∧ d' = (d.set (.pos i) f).set (.iix i) (ps.flatMap ShardIndexer.iixEntry) := by
  unfold FShard.close at h
  generalize hG : FShard.flushIndF s.x.ind s.x.file s.fates = r at h
  obtain ⟨ok, ps, f, φ⟩ := r
  cases ok with
  | false => simp at h
  | true =>
    simp only [if_true] at h
    generalize hH : (d.set (.pos i) f).runF (.trunc (.iix i) :: Op.writes (.iix i) 0 (ps.flatMap ShardIndexer.iixChunks)) φ = r at h
    obtain ⟨ok, d2, φ2⟩ := r
    simp only [Prod.mk.injEq] at h
    obtain ⟨rfl, rfl⟩ := h
    refine ⟨ps, f, φ, rfl, ?_⟩
    rw [runF_true _ hH, run_iix]

/-! ### Reading it back -/

theorem readIix_any (ps : List Poster) (h : ∀ p ∈ ps, -(2 ^ 63) ≤ p.head ∧ p.head < 2 ^ 63) :
    ShardIndex.readIix ps.length (ps.flatMap ShardIndexer.iixEntry) = .ok (ps.map fun p => (p.head, p.total)) := by
  induction ps with
  | nil => rfl
  | cons p ps ih =>
    obtain ⟨hb1, hb2⟩ := h p (by simp)
    have ht := p.total.toNat_lt
    simp only [List.length_cons, ShardIndex.readIix, List.flatMap_cons, ShardIndexer.iixEntry, List.append_assoc]
    rw [readVarint_put _ _ hb1 hb2]
    simp only [bind, Except.bind]
    rw [readVarint_put _ _ (by omega) (by omega)]
    simp only []
    rw [if_neg (by omega)]
    have : readFull (be32 p.current ++ ps.flatMap ShardIndexer.iixEntry) 4 = .ok (be32 p.current, ps.flatMap ShardIndexer.iixEntry) := by
      unfold readFull
      rw [if_pos (by simp [be32_length])]
      rw [← be32_length p.current, List.take_left, List.drop_left]
    rw [this]
    simp only []
    rw [ih (fun q hq => h q (by simp [hq]))]
    simp [pure, Except.pure]

/-- What an open shard index delivers: all of `vals b`, or some of it and then an error. -/
structure FIndexRep (br : Nat → Bool) (srt : Sorter) (n : Nat) (x : ShardIndex) (vals : Nat → List UInt32) : Prop where
  lenH : x.heads.length = n
  lenC : x.counts.length = n
  counts : ∀ b, b < n → (x.counts.getD b 0).toNat = (vals b).length
  perm : x.perm = srt x.counts
  id : x.id = 0
  posts : ∀ (b : Nat) h, x.heads[b]? = some h → ∃ ws fine, Delivers x.file (Posts.new h) ws fine ∧ ws <+: vals b ∧ (fine = true → ws = vals b ∧ br b = false)

theorem FShardRep.index {br : Nat → Bool} {n : Nat} {ps : List Poster} {f : Bytes} {vals : Nat → List UInt32} (h : FShardRep br n ⟨ps, f⟩ vals) (hp : ∀ p ∈ ps, p.posts = [])
    (hl : f.length < 2 ^ 63) (srt : Sorter) :
    ∃ x, ShardIndex.init srt n ⟨f, ps.flatMap ShardIndexer.iixEntry⟩ = .ok x ∧ FIndexRep br srt n x vals := by
  obtain ⟨L, hlaid, how, hn, hrep⟩ := h
  simp only [] at hlaid hn hrep
  unfold ShardIndex.init
  rw [← hn]
  rw [readIix_any ps (by
    intro p hp
    obtain ⟨i, hi, e⟩ := List.getElem_of_mem hp
    have := (hrep i p (by rw [← e]; exact List.getElem?_eq_getElem hi)).bound
    constructor <;> omega)]
  simp only [bind, Except.bind, pure, Except.pure]
  refine ⟨_, rfl, by simp, by simp, ?_, rfl, rfl, ?_⟩
  · intro b hb
    have hget : ps[b]? = some ps[b] := List.getElem?_eq_getElem hb
    simp [List.getD_eq_getElem?_getD, hget, (hrep b _ hget).total]
  · intro b h hh
    simp only [List.getElem?_map, Option.map_map, Option.map_eq_some_iff] at hh
    obtain ⟨p, hpb, rfl⟩ := hh
    exact (hrep b p hpb).delivers hlaid (hp p (List.mem_of_getElem? hpb)) hl

/-! ### From a shard without failures -/

/-- where the blocks are -/
def place : Nat → List Blk → List PBlk
  | _, [] => []
  | off, b :: bs => ⟨b.owner, off, b.payload⟩ :: place (off + b.size) bs

theorem place_hdr (b : Blk) (off : Nat) : (⟨b.owner, off, b.payload⟩ : PBlk).hdr = b.hdr := rfl

theorem place_stop (b : Blk) (off : Nat) : (⟨b.owner, off, b.payload⟩ : PBlk).stop = off + b.size := by
  simp only [PBlk.stop, PBlk.link, place_hdr, Blk.size]; omega

theorem place_range (bs : List Blk) : ∀ off, ∀ b ∈ place off bs, off ≤ b.pos ∧ b.stop ≤ off + sizes bs := by
  induction bs with
  | nil => intro off b hb; simp [place] at hb
  | cons c bs ih =>
    intro off b hb
    rw [sizes_cons]
    rcases List.mem_cons.mp hb with rfl | hb
    · exact ⟨Nat.le_refl _, by rw [place_stop]; omega⟩
    · have := ih _ b hb; omega

theorem place_laid (bs : List Blk) : ∀ pre : Bytes, Laid (pre ++ render pre.length bs) (place pre.length bs) := by
  induction bs with
  | nil => intro pre; exact ⟨by simp [place], by simp [place], by simp [place]⟩
  | cons c bs ih =>
    intro pre
    have hl : (c.hdr ++ (c.payload ++ linkBytes (nextOff c.owner (pre.length + c.size) bs))).length = c.size := blk_bytes_length c _
    have := ih (pre ++ (c.hdr ++ (c.payload ++ linkBytes (nextOff c.owner (pre.length + c.size) bs))))
    rw [List.length_append, hl, List.append_assoc] at this
    refine ⟨?_, ?_, ?_⟩
    · refine List.pairwise_cons.mpr ⟨?_, this.apart⟩
      intro b hb
      rw [place_stop]
      exact (place_range bs _ b hb).1
    · intro b hb
      have := (place_range (c :: bs) _ b hb).2
      rw [List.length_append, render_length]; exact this
    · intro b hb
      rcases List.mem_cons.mp hb with rfl | hb
      · refine ⟨linkBytes (nextOff c.owner (pre.length + c.size) bs) ++ render (pre.length + c.size) bs, ?_⟩
        simp [render, place_hdr]
      · exact this.here b hb

theorem place_first (o : Nat) (bs : List Blk) : ∀ off, firstPos (ownOf o (place off bs)) = nextOff o off bs := by
  induction bs with
  | nil => intro off; rfl
  | cons c bs ih =>
    intro off
    by_cases h : c.owner = o
    · simp [place, ownOf, h, firstPos, nextOff]
    · have := ih (off + c.size)
      simp only [ownOf] at this
      simp [place, ownOf, h, nextOff, this]

theorem place_chain {o : Nat} {f : Bytes} (bs : List Blk) : ∀ {off : Nat}, Covers o f off bs → Chain f (ownOf o (place off bs)) := by
  induction bs with
  | nil => intro off _; trivial
  | cons c bs ih =>
    intro off h
    have := ih h.2
    by_cases hc : c.owner = o
    · have e : ownOf o (place off (c :: bs)) = ⟨c.owner, off, c.payload⟩ :: ownOf o (place (off + c.size) bs) := by
        simp [place, ownOf, hc]
      rw [e]
      have hat : At f off (c.hdr ++ c.payload ++ linkBytes (nextOff o (off + c.size) bs)) := by
        refine ⟨(f.drop off).drop c.size, ?_⟩
        have h1 := h.1 hc
        rw [List.append_assoc c.hdr, ← h1, List.take_append_drop]
      obtain ⟨h1, h2⟩ := At.append.mp hat
      refine ⟨h1, ?_, this⟩
      rw [place_first]
      rw [show (⟨c.owner, off, c.payload⟩ : PBlk).link = off + (c.hdr ++ c.payload).length by simp [PBlk.link, place_hdr]; omega]
      exact h2
    · have e : ownOf o (place off (c :: bs)) = ownOf o (place (off + c.size) bs) := by simp [place, ownOf, hc]
      rw [e]; exact this

theorem place_lastLink (o : Nat) (bs : List Blk) : ∀ off,
    (match (ownOf o (place off bs)).getLast? with | none => -1 | some b => (b.link : Int)) = lastLink o off bs := by
  induction bs with
  | nil => intro off; rfl
  | cons c bs ih =>
    intro off
    have h1 := ih (off + c.size)
    simp only [lastLink]
    rw [← h1]
    by_cases hc : c.owner = o
    · have e : ownOf o (place off (c :: bs)) = ⟨c.owner, off, c.payload⟩ :: ownOf o (place (off + c.size) bs) := by
        simp [place, ownOf, hc]
      rw [e]
      cases hg : (ownOf o (place (off + c.size) bs)).getLast? with
      | none =>
        have := List.getLast?_eq_none_iff.mp hg
        rw [this]
        simp only [List.getLast?_singleton]
        rw [if_neg (by simp), if_pos hc]
        have := place_stop c off
        simp only [PBlk.stop] at this
        omega
      | some b =>
        rw [List.getLast?_cons, hg]
        simp only [Option.getD_some]
        rw [if_pos (by omega)]
    · have e : ownOf o (place off (c :: bs)) = ownOf o (place (off + c.size) bs) := by simp [place, ownOf, hc]
      rw [e]
      cases hg : (ownOf o (place (off + c.size) bs)).getLast? with
      | none => simp [hc]
      | some b => simp only []; rw [if_pos (by omega)]

theorem place_payloads (o : Nat) (bs : List Blk) : ∀ off, (ownOf o (place off bs)).map PBlk.payload = (bs.filter (·.owner = o)).map Blk.payload := by
  induction bs with
  | nil => intro off; rfl
  | cons c bs ih =>
    intro off
    have h1 := ih (off + c.size)
    simp only [ownOf] at h1
    by_cases hc : c.owner = o <;> simp [place, ownOf, hc, h1]

theorem ShardRep.faulty {n : Nat} {x : ShardIndexer} {vals : Nat → List UInt32} (h : ShardRep n x vals) : FShardRep (fun _ => false) n x vals := by
  obtain ⟨bs, hf, hwf, how, hn, hp⟩ := h
  have hlaid := place_laid bs []
  simp only [List.nil_append, List.length_nil] at hlaid
  refine ⟨place 0 bs, by rw [hf]; exact hlaid, ?_, hn, ?_⟩
  · have : ∀ bs : List Blk, (∀ b ∈ bs, b.owner < n) → ∀ off, ∀ b ∈ place off bs, b.owner < n := by
      intro bs
      induction bs with
      | nil => intro _ off b hb; simp [place] at hb
      | cons c bs ih =>
        intro h off b hb
        rcases List.mem_cons.mp hb with rfl | hb
        · exact h c (by simp)
        · exact ih (fun b hb => h b (by simp [hb])) _ b hb
    exact this bs how 0
  · intro o p ho
    obtain ⟨hr, _⟩ := hp o p ho
    have hcov : Covers o x.file 0 bs := by
      have := Covers.render o bs [] []
      rw [hf]; simpa using this
    have hch := place_chain bs hcov
    have hfirst := place_first o bs 0
    obtain ⟨ds, hds, hfl⟩ := hr.pend
    refine ⟨hr.link.trans (place_lastLink o bs 0).symm, ?_, ?_, ?_, hch.linked, fun _ => hch.fin, hr.current, hr.total, ?_⟩
    · intro b hb
      rw [hr.head, ← hfirst]
      cases hg : ownOf o (place 0 bs) with
      | nil => rw [hg] at hb; simp at hb
      | cons a r => rw [hg] at hb; simp at hb; subst hb; rfl
    · intro e _
      rw [hr.head, ← hfirst, e]; rfl
    · have h1 := nextOff_lt o bs 0
      rw [hr.head, hf, render_length]
      rcases nextOff_ge o bs 0 with e | e <;> constructor <;> omega
    · rw [place_payloads]
      refine .good ((bs.filter (·.owner = o)).map Blk.deltas) ds (by simp [Blk.payload, Function.comp]) ?_ hds ?_ rfl
      · intro e he
        obtain ⟨b, hb, rfl⟩ := List.mem_map.mp he
        have := hwf b (List.mem_filter.mp hb |>.1)
        exact ⟨this.ne, this.small⟩
      · rw [← hfl]; simp [flushed, List.flatMap_def]

end Dupi
