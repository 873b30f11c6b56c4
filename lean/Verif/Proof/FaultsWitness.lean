import Verif.Proof.FaultsIndex
/-! # A session that loses posts without reporting it -/

namespace Dupi
open Spec

/-! ### Calls that all succeed -/

theorem writesF_nil (bs : List Bytes) : ∀ file, Dmd.writesF file bs [] = (true, file ++ bs.flatten, []) := by
  induction bs with
  | nil => intro file; simp [Dmd.writesF]
  | cons b bs ih => intro file; simp [Dmd.writesF, Fates.now, ih]

theorem dmd_addF_nil (t : Dmd.Adder) (file : Option Bytes) (x : Fields) :
    Dmd.addF t file x [] = (some (Dmd.add t file x).1, (Dmd.add t file x).2.1, (Dmd.add t file x).2.2, []) := by
  unfold Dmd.addF Dmd.add
  by_cases hc : UInt32.ofNat t.buf.length = t.flushRate
  · simp only [if_pos hc, Dmd.flushF, Fates.now, List.head?_nil, Option.join_none, List.tail_nil, writesF_nil, if_true, Dmd.flush, List.flatMap_def]
  · simp only [if_neg hc, if_true]

theorem addsF_nil (cwd : Bytes) (docs : List Doc) : ∀ {x y : Front} {rs : List Front.Req}, x.adds cwd docs = .ok (rs, y) →
    x.addsF cwd docs [] = .ok (rs.map some, y, []) := by
  induction docs with
  | nil =>
    intro x y rs h
    simp only [Front.adds, Except.ok.injEq, Prod.mk.injEq] at h
    obtain ⟨rfl, rfl⟩ := h
    rfl
  | cons doc docs ih =>
    intro x y rs h
    simp only [Front.adds, Front.add, bind, Except.bind, pure, Except.pure] at h
    simp only [Front.addsF, Front.addF, bind, Except.bind, pure, Except.pure]
    cases hp : Fnames.addPath cwd x.fnames doc.path with
    | error e => simp [hp] at h
    | ok r =>
      obtain ⟨n, t⟩ := r
      simp only [hp] at h ⊢
      rw [dmd_addF_nil]
      simp only []
      generalize hH : Front.adds cwd _ docs = r at h
      match r, hH, h with
      | .error _, _, h => simp at h
      | .ok (rs', y'), hH, h =>
        simp only [Except.ok.injEq, Prod.mk.injEq] at h
        obtain ⟨rfl, rfl⟩ := h
        rw [ih hH]
        rfl

theorem runF_nil (ops : List Op) : ∀ d : Dir, d.runF ops [] = (true, d.run ops, []) := by
  induction ops with
  | nil => intro d; rfl
  | cons op ops ih => intro d; simp only [Dir.runF, Fates.now, List.head?_nil, Option.join_none, List.tail_nil, ih]; rfl

theorem flushF_nil {p : Poster} (h : p.link = -1 ∨ 0 ≤ p.link) (f : Bytes) : ∃ p' f', p.flushF f [] = (true, p', f', []) := by
  unfold Poster.flushF
  simp only [Poster.flushTailF, Fates.now, List.head?_nil, Option.join_none, List.tail_nil]
  split
  · exact ⟨_, _, rfl⟩
  · split
    · rw [if_neg (by omega)]; exact ⟨_, _, rfl⟩
    · exact ⟨_, _, rfl⟩

theorem flushIndF_nil (ps : List Poster) (h : ∀ p ∈ ps, p.link = -1 ∨ 0 ≤ p.link) : ∀ f : Bytes, ∃ ps' f', FShard.flushIndF ps f [] = (true, ps', f', []) := by
  induction ps with
  | nil => intro f; exact ⟨_, _, rfl⟩
  | cons p ps ih =>
    intro f
    obtain ⟨p', f', h1⟩ := flushF_nil (h p (by simp)) f
    obtain ⟨ps', f'', h2⟩ := ih (fun q hq => h q (by simp [hq])) f'
    exact ⟨p' :: ps', f'', by simp [FShard.flushIndF, h1, h2]⟩

theorem FRep.link_ge {br : Bool} {f : Bytes} {L : List PBlk} {o : Nat} {p : Poster} {vals : List UInt32} (h : FRep br f L o p vals) :
    p.link = -1 ∨ 0 ≤ p.link := by
  have := h.link
  split at this
  · exact .inl this
  · exact .inr (by rw [this]; exact Int.natCast_nonneg _)

theorem FShard.close_nil {br : Nat → Bool} {n : Nat} {s : FShard} {vals : Nat → List UInt32} (h : FShardRep br n s.x vals) (hφ : s.fates = []) (i : Nat) (d : Dir) :
    ∃ d', s.close i d = (true, d') := by
  obtain ⟨L, _, _, _, hp⟩ := h
  obtain ⟨ps, f, e⟩ := flushIndF_nil s.x.ind (by
    intro p hp'
    obtain ⟨o, ho⟩ := List.getElem?_of_mem hp'
    exact (hp o p ho).link_ge) s.x.file
  unfold FShard.close
  rw [hφ, e]
  simp only [if_true, runF_nil]
  exact ⟨_, rfl⟩

theorem closeShardsF_nil (sh : Nat → FShard) (n : Nat) (h : ∀ j, j < n → ∀ d, ∃ d', (sh j).close j d = (true, d')) : ∀ d : Dir, ∃ d', Indexer.closeShardsF sh n d = (true, d') := by
  induction n with
  | zero => intro d; exact ⟨d, rfl⟩
  | succ n ih =>
    intro d
    obtain ⟨d1, h1⟩ := ih (fun j hj => h j (by omega)) d
    obtain ⟨d2, h2⟩ := h n (by omega) d1
    exact ⟨d2, by simp [Indexer.closeShardsF, h1, h2]⟩

/-! ### 512 posts to one bucket, the last of which cannot be written -/

/-- a poster that was given the docids 1, ..., k -/
def onesPoster (k : Nat) : Poster := ⟨-1, -1, UInt32.ofNat k, UInt32.ofNat k, List.replicate k 1⟩

theorem onesPoster_add {k : Nat} (hk : k < 512) :
    (onesPoster k).addPostF (UInt32.ofNat (k + 1)) [] φ =
      if k = 511 then { onesPoster 512 with head := -1 }.flushF [] φ else (true, onesPoster (k + 1), [], φ) := by
  have hne : UInt32.ofNat k ≠ UInt32.ofNat (k + 1) := by
    intro e
    have := congrArg UInt32.toNat e
    simp only [UInt32.toNat_ofNat'] at this
    omega
  have hd : (UInt32.ofNat (k + 1) - UInt32.ofNat k).toNat = 1 := by
    rw [UInt32.toNat_sub]; simp only [UInt32.toNat_ofNat']; omega
  have ht : UInt32.ofNat k + 1 = UInt32.ofNat (k + 1) := by
    apply UInt32.toNat_inj.mp
    rw [UInt32.toNat_add]; simp
  have hp : putUvarint 1 = [1] := by
    unfold putUvarint; simp
  unfold Poster.addPostF
  rw [if_neg (fun h => hne h.1)]
  simp only [onesPoster, hd, ht, hp]
  have hrep : List.replicate k (1 : UInt8) ++ [1] = List.replicate (k + 1) 1 := List.replicate_succ'.symm
  rw [hrep]
  simp only [List.length_replicate]
  by_cases h : k = 511
  · subst h; rw [if_pos (by decide), if_pos rfl]
  · rw [if_neg (by simp only [Poster.flushRate]; omega), if_neg h]

/-- the posts of `k` documents all falling in bucket `b` -/
def onesPosts (b k : Nat) : List (UInt32 × Nat) := (List.range k).map fun i => (UInt32.ofNat (i + 1), b)

theorem onesPosts_succ (b k : Nat) : onesPosts b (k + 1) = onesPosts b k ++ [(UInt32.ofNat (k + 1), b)] := by
  simp [onesPosts, List.range_succ]

theorem addAll_ones {n b : Nat} (hb : b < n) (φ : Fates) (k : Nat) (hk : k ≤ 511) :
    FShard.addAll ⟨ShardIndexer.initCreate n, φ, false⟩ (onesPosts b k) =
      .ok ⟨⟨(List.replicate n Poster.initCommon).set b (onesPoster k), []⟩, φ, false⟩ := by
  induction k with
  | zero =>
    have : (List.replicate n Poster.initCommon).set b (onesPoster 0) = List.replicate n Poster.initCommon := by
      apply List.ext_getElem?
      intro i
      rw [List.getElem?_set]
      split
      · rename_i e; subst e; simp [hb]; rfl
      · rfl
    rw [this]; rfl
  | succ k ih =>
    rw [onesPosts_succ, FShard.addAll_append, ih (by omega)]
    have : ((List.replicate n Poster.initCommon).set b (onesPoster k))[b]? = some (onesPoster k) := by simp [hb]
    simp only [Except.bind, FShard.addAll, FShard.add, this, onesPoster_add (show k < 512 by omega), if_neg (show ¬ k = 511 by omega), bind]
    simp

/-- what the goroutine is left with after 512 posts, the third system call of the flush having failed -/
def lostShard (n b : Nat) : FShard :=
  ⟨⟨(List.replicate n Poster.initCommon).set b ⟨-1, 0, 512, 512, List.replicate 512 1 ++ ff8⟩, []⟩, [], true⟩

theorem flush_lost {p : Poster} (h0 : p.posts ≠ []) (hl : p.link = -1) :
    p.flushF [] [none, none, some 0] = (false, { p with head := 0, posts := p.posts ++ ff8 }, [], []) := by
  unfold Poster.flushF
  rw [if_neg h0]
  simp only [Poster.flushTailF, Fates.now, List.head?_cons, Option.join_some, List.tail_cons, List.take_zero]
  rw [if_neg (by simp [hl])]
  rfl

theorem addAll_lost {n b : Nat} (hb : b < n) :
    FShard.addAll ⟨ShardIndexer.initCreate n, [none, none, some 0], false⟩ (onesPosts b 512) = .ok (lostShard n b) := by
  rw [onesPosts_succ, FShard.addAll_append, addAll_ones hb _ _ (by omega)]
  have : ((List.replicate n Poster.initCommon).set b (onesPoster 511))[b]? = some (onesPoster 511) := by simp [hb]
  simp only [Except.bind, FShard.addAll, FShard.add, this, onesPoster_add (show 511 < 512 by omega), if_true, bind]
  rw [flush_lost (p := { onesPoster 512 with head := -1 }) (by
    intro e
    have := congrArg List.length e
    rw [onesPoster, List.length_replicate] at this
    simp at this) rfl]
  simp only [List.set_set, Bool.not_false, Bool.or_true]
  rfl

theorem encDeltas_ones (k : Nat) : encDeltas (List.replicate k 1) = List.replicate k 1 := by
  have hp : putUvarint 1 = [1] := by unfold putUvarint; simp
  induction k with
  | zero => rfl
  | succ k ih =>
    rw [List.replicate_succ, encDeltas_cons, ih, List.replicate_succ]
    simp [hp]

/-- its posting list is lost -/
theorem lostShard_rep {n b : Nat} (hb : b < n) {vals : Nat → List UInt32} (h : FShardRep (fun _ => false) n (lostShard n b).x vals) :
    FShardRep (fun o => decide (o = b)) n (lostShard n b).x vals := by
  obtain ⟨L, hl, how, hn, hp⟩ := h
  have hL : L = [] := by
    cases L with
    | nil => rfl
    | cons a L =>
      have := hl.inside a (by simp)
      rw [show (lostShard n b).x.file = [] from rfl, PBlk.stop] at this
      simp at this
  subst hL
  refine ⟨[], hl, how, hn, fun o p ho => ?_⟩
  have hr := hp o p ho
  by_cases e : o = b
  · subst e
    have hpp : p = ⟨-1, 0, 512, 512, List.replicate 512 1 ++ ff8⟩ := by
      simp only [lostShard, List.getElem?_set, List.length_replicate, hb, if_true] at ho
      injection ho with ho; exact ho.symm
    refine ⟨hr.link, hr.head, hr.none, hr.bound, hr.linked, hr.fin, hr.current, hr.total, ?_⟩
    refine .pending [] (List.replicate 512 1) [] rfl (by intro ds h; simp at h) ?_ List.nil_prefix
    rw [encDeltas_ones, hpp, List.append_nil]
  · have : (fun o => decide (o = b)) o = false := by simp [e]
    rw [this]; exact hr

theorem shardPosts_ones {u : Uni} {c : Config} {s : Document} {y : UInt32} (hs : blotsOf u c s.dat = [y]) (j : Nat) (k : Nat) : ∀ i,
    shardPosts u c j i (List.replicate k s) =
      if y.toNat % c.numShards.toNat = j then (List.range k).map fun m => (UInt32.ofNat (i + m), y.toNat / c.numShards.toNat % 65536) else [] := by
  induction k with
  | zero => intro i; simp [shardPosts]
  | succ k ih =>
    intro i
    rw [List.replicate_succ, shardPosts, ih, hs]
    by_cases h : y.toNat % c.numShards.toNat = j
    · simp only [docPosts, h, if_true, List.range_succ_eq_map]
      simp [h, Nat.add_assoc, Nat.add_comm 1]
    · simp [docPosts, h]

/-! ### Shards none of whose calls fail -/

theorem flushF_of {p p' : Poster} {f f' : Bytes} (h : p.flushTo f = .ok (p', f')) : p.flushF f [] = (true, p', f', []) := by
  have hl : p.posts = [] ∨ p.link = -1 ∨ 0 ≤ p.link := by
    unfold Poster.flushTo Poster.flushWrites at h
    by_cases he : p.posts = []
    · exact .inl he
    · by_cases h1 : p.link = -1
      · exact .inr (.inl h1)
      · by_cases h2 : p.link < 0
        · rw [if_neg he, if_pos h1, if_pos h2] at h
          simp [bind, Except.bind] at h
        · exact .inr (.inr (by omega))
  have : ∃ p1 f1, p.flushF f [] = (true, p1, f1, []) := by
    rcases hl with h0 | h0
    · exact ⟨p, f, by simp [Poster.flushF, h0]⟩
    · exact flushF_nil h0 f
  obtain ⟨p1, f1, h1⟩ := this
  have h2 := (flushF_true h1).symm.trans h
  simp only [Except.ok.injEq, Prod.mk.injEq] at h2
  rw [h1, h2.1, h2.2]

theorem addPostF_of {p p' : Poster} {v : UInt32} {f f' : Bytes} (h : p.addPost v f = .ok (p', f')) : p.addPostF v f [] = (true, p', f', []) := by
  unfold Poster.addPost at h
  unfold Poster.addPostF
  split
  · rename_i hc
    rw [if_pos hc] at h
    simp only [Except.ok.injEq, Prod.mk.injEq] at h
    rw [h.1, h.2]
  · rename_i hc
    rw [if_neg hc] at h
    simp only [] at h ⊢
    split
    · rename_i hl
      rw [if_pos hl] at h
      exact flushF_of h
    · rename_i hl
      rw [if_neg hl] at h
      simp only [Except.ok.injEq, Prod.mk.injEq] at h
      rw [h.1, h.2]

theorem addAll_of (ps : List (UInt32 × Nat)) : ∀ {x y : ShardIndexer}, x.addAll ps = .ok y →
    FShard.addAll ⟨x, [], false⟩ ps = .ok ⟨y, [], false⟩ := by
  induction ps with
  | nil =>
    intro x y h
    simp only [ShardIndexer.addAll, Except.ok.injEq] at h
    rw [h]; rfl
  | cons q ps ih =>
    obtain ⟨d, b⟩ := q
    intro x y h
    simp only [ShardIndexer.addAll, bind, Except.bind, ShardIndexer.add, pure, Except.pure] at h
    simp only [FShard.addAll, bind, Except.bind, FShard.add]
    cases hg : x.ind[b]? with
    | none => simp [hg, panic'] at h
    | some p =>
      simp only [hg] at h ⊢
      cases ha : p.addPost d x.file with
      | error e => simp [ha] at h
      | ok r =>
        obtain ⟨p', f'⟩ := r
        simp only [ha] at h
        rw [addPostF_of ha]
        exact ih h

end Dupi
