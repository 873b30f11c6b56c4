import Verif.Proof.TwinPoster
/-! # A shard in a posting file another process writes to as well -/

namespace Dupi
open Spec

/-- the shard indexer `x` of `n` buckets, the blocks `L` being in its file -/
structure TShardRep (base : Nat → List UInt32) (tl : Nat → Int) (n : Nat) (x : ShardIndexer) (L : List PBlk) (vals : Nat → List UInt32) : Prop where
  laid : Laid x.file L
  len : x.ind.length = n
  rep : ∀ (o : Nat) p, x.ind[o]? = some p → TRep (base o) (tl o) x.file L o p (vals o) ∧ p.posts.length < 512

/-- the blocks `N` of the buckets below `n` were added; links of other blocks are as they were -/
structure TGrow (n : Nat) (f : Bytes) (L : List PBlk) (f' : Bytes) (N : List PBlk) : Prop where
  owners : ∀ b ∈ N, b.owner < n
  keep : ∀ o, n ≤ o → KeepsLinks f f' (ownOf o L)

theorem TGrow.refl {n : Nat} {f : Bytes} {L : List PBlk} : TGrow n f L f [] := ⟨by simp, fun _ _ _ _ _ _ h => h⟩

theorem TGrow.own {n : Nat} {f f' : Bytes} {L N : List PBlk} (h : TGrow n f L f' N) {o : Nat} (ho : n ≤ o) : ownOf o (L ++ N) = ownOf o L := by
  rw [ownOf_append, ownOf_other (N := N) (fun b hb e => by have := h.owners b hb; omega), List.append_nil]

theorem TGrow.trans {n : Nat} {f g k : Bytes} {L M N : List PBlk} (h1 : TGrow n f L g M) (h2 : TGrow n g (L ++ M) k N) : TGrow n f L k (M ++ N) := by
  refine ⟨fun b hb => ?_, fun o ho a ha d hd hat => ?_⟩
  · rcases List.mem_append.mp hb with hb | hb
    · exact h1.owners b hb
    · exact h2.owners b hb
  · exact h2.keep o ho a (by rw [h1.own ho]; exact ha) d hd (h1.keep o ho a ha d hd hat)

theorem TStep.grow {n : Nat} {f f' : Bytes} {L N : List PBlk} {o : Nat} (h : TStep f L o f' N) (ho : o < n) : TGrow n f L f' N :=
  ⟨fun b hb => by rw [h.owners b hb]; exact ho, fun o' ho' => h.keep o' (by omega)⟩

/-- the length of the file once all is flushed, at most -/
def scost (x : ShardIndexer) : Nat := x.file.length + (x.ind.map pcost).sum

theorem sum_set_pcost (p' : Poster) : ∀ (l : List Poster) (b : Nat) (h : b < l.length), ((l.set b p').map pcost).sum + pcost l[b] = (l.map pcost).sum + pcost p'
  | [], _, h => by simp at h
  | a :: l, 0, _ => by simp; omega
  | a :: l, b + 1, h => by
    have := sum_set_pcost p' l b (by simpa using h)
    simp only [List.set_cons_succ, List.map_cons, List.sum_cons, List.getElem_cons_succ]
    omega

theorem TShardRep.add {base : Nat → List UInt32} {tl : Nat → Int} {n : Nat} {x : ShardIndexer} {L : List PBlk} {vals : Nat → List UInt32}
    (h : TShardRep base tl n x L vals) (d : UInt32) (b : Nat) (hb : b < n) (hlen : (pushVal vals d b b).length < 2 ^ 32) :
    ∃ x' N, x.add d b = .ok x' ∧ TShardRep base tl n x' (L ++ N) (pushVal vals d b) ∧ TGrow n x.file L x'.file N ∧
      scost x' ≤ scost x + 23 := by
  have hb' : b < x.ind.length := by rw [h.len]; exact hb
  have hget : x.ind[b]? = some x.ind[b] := List.getElem?_eq_getElem hb'
  obtain ⟨hr, hsm⟩ := h.rep b _ hget
  have hpv : pushVal vals d b b = if (vals b).getLast? = some d then vals b else vals b ++ [d] := by simp [pushVal]
  rw [hpv] at hlen
  obtain ⟨p', f', N, h1, h2, h3, h4, h5⟩ := addPost_twin h.laid hr hsm d hlen
  refine ⟨⟨x.ind.set b p', f'⟩, N, by simp [ShardIndexer.add, hget, h1, bind, Except.bind, pure, Except.pure], ⟨h2.laid, by simp [h.len], ?_⟩, h2.grow hb, ?_⟩
  rotate_left
  · have := sum_set_pcost p' x.ind b hb'
    simp only [scost]; omega
  intro o p ho
  simp only [List.getElem?_set] at ho
  by_cases e : b = o
  · subst e
    simp only [hb', if_true] at ho
    injection ho with ho; subst ho
    rw [hpv]; exact ⟨h3, h4⟩
  · simp only [e, if_false] at ho
    simp only [pushVal, e, if_false]
    obtain ⟨g1, g2⟩ := h.rep o p ho
    exact ⟨g1.frame h2 (fun h => e h.symm), g2⟩

theorem TShardRep.addAll {base : Nat → List UInt32} {tl : Nat → Int} {n : Nat} {x : ShardIndexer} {L : List PBlk} {old : List (UInt32 × Nat)}
    (h : TShardRep base tl n x L (postings old)) (posts : List (UInt32 × Nat)) (hb : ∀ q ∈ posts, q.2 < n)
    (hlen : ∀ b, (postings (old ++ posts) b).length < 2 ^ 32) :
    ∃ x' N, x.addAll posts = .ok x' ∧ TShardRep base tl n x' (L ++ N) (postings (old ++ posts)) ∧ TGrow n x.file L x'.file N ∧
      scost x' ≤ scost x + 23 * posts.length := by
  induction posts using snocInd with
  | nil => exact ⟨x, [], rfl, by simpa using h, .refl, by simp⟩
  | snoc posts a ih =>
    obtain ⟨d, b⟩ := a
    rw [← List.append_assoc] at hlen ⊢
    obtain ⟨y, M, hy, hrep, hg, hc⟩ := ih (fun q hq => hb q (by simp [hq]))
      (fun b => Nat.lt_of_le_of_lt (postings_mono _ _ _) (hlen b))
    obtain ⟨z, N, hz, hzr, hg', hc'⟩ := hrep.add d b (hb (d, b) (by simp)) (by rw [pushVal_postings]; exact hlen b)
    rw [pushVal_postings] at hzr
    refine ⟨z, M ++ N, ?_, by rw [← List.append_assoc]; exact hzr, hg.trans hg', by simp only [List.length_append, List.length_cons, List.length_nil]; omega⟩
    rw [ShardIndexer.addAll_append, hy]
    simp [Except.bind, ShardIndexer.addAll, hz, bind]

theorem flushInd_twin (base : Nat → List UInt32) (tl : Nat → Int) (vals : Nat → List UInt32) (ps : List Poster) : ∀ (done : List Poster) {f : Bytes} {L : List PBlk},
    Laid f L → (∀ (o : Nat) p, (done ++ ps)[o]? = some p → TRep (base o) (tl o) f L o p (vals o) ∧ p.posts.length < 512) → (∀ p ∈ done, p.posts = []) →
    ∃ ps' f' N, ShardIndexer.flushInd ps f = .ok (ps', f') ∧ Laid f' (L ++ N) ∧ ps'.length = ps.length ∧ TGrow (done ++ ps).length f L f' N ∧ f'.length ≤ f.length + (ps.map pcost).sum ∧
      ∀ (o : Nat) p, (done ++ ps')[o]? = some p → TRep (base o) (tl o) f' (L ++ N) o p (vals o) ∧ p.posts = [] := by
  induction ps with
  | nil =>
    intro done f L hl hr hd
    exact ⟨[], f, [], rfl, by simpa using hl, rfl, .refl, by simp, fun o p hp => ⟨by simpa using (hr o p hp).1, hd p (by simpa using List.mem_of_getElem? hp)⟩⟩
  | cons q ps ih =>
    intro done f L hl hr hd
    have hq : (done ++ q :: ps)[done.length]? = some q := by simp
    obtain ⟨h1, h2⟩ := hr _ _ hq
    obtain ⟨q', f1, M, g1, g2, g3, g4, g5⟩ := flushTo_twin hl h1 (by omega)
    obtain ⟨ps', f2, N, k1, k2, k3, k4, k6, k5⟩ := ih (done ++ [q']) g2.laid (by
      intro o p hp
      by_cases e : o = done.length
      · subst e
        have : p = q' := by simpa using hp.symm
        subst this
        exact ⟨g3, by rw [g4]; decide⟩
      · have : (done ++ q :: ps)[o]? = some p := by
          rw [← hp]
          by_cases hlt : o < done.length
          · rw [List.getElem?_append_left hlt, List.append_assoc, List.getElem?_append_left hlt]
          · rw [List.getElem?_append_right (by omega), List.append_assoc, List.getElem?_append_right (by omega)]
            obtain ⟨m, hm⟩ : ∃ m, o - done.length = m + 1 := ⟨o - done.length - 1, by omega⟩
            rw [hm]; rfl
        obtain ⟨a1, a2⟩ := hr o p this
        exact ⟨a1.frame g2 e, a2⟩) (by
      intro p hp
      rcases List.mem_append.mp hp with hp | hp
      · exact hd p hp
      · rw [List.mem_singleton.mp hp]; exact g4)
    have hlen : (done ++ [q'] ++ ps).length = (done ++ q :: ps).length := by simp
    rw [hlen] at k4
    refine ⟨q' :: ps', f2, M ++ N, ?_, by rw [← List.append_assoc]; exact k2, by simp [k3], (g2.grow (by simp)).trans k4, by simp only [List.map_cons, List.sum_cons]; omega, ?_⟩
    · simp only [ShardIndexer.flushInd, g1, k1, bind, Except.bind, pure, Except.pure]
    · rw [← List.append_assoc]
      intro o p hp
      exact k5 o p (by rw [List.append_assoc]; exact hp)

/-- closing the shard -/
theorem TShardRep.close {base : Nat → List UInt32} {tl : Nat → Int} {n : Nat} {x : ShardIndexer} {L : List PBlk} {vals : Nat → List UInt32}
    (h : TShardRep base tl n x L vals) :
    ∃ ps f N, x.close = .ok ⟨f, ps.flatMap ShardIndexer.iixEntry⟩ ∧ TGrow n x.file L f N ∧ TShardRep base tl n ⟨ps, f⟩ (L ++ N) vals ∧ (∀ p ∈ ps, p.posts = []) ∧ f.length ≤ scost x := by
  obtain ⟨ps, f, N, h1, h2, h3, h4, h6, h5⟩ := flushInd_twin base tl vals x.ind [] h.laid (by simpa using h.rep) (by simp)
  rw [List.nil_append, h.len] at h4
  refine ⟨ps, f, N, by simp [ShardIndexer.close, h1, bind, Except.bind, pure, Except.pure], h4, ⟨h2, h3.trans h.len, fun o p hp => ?_⟩, fun p hp => ?_, h6⟩
  · obtain ⟨a1, a2⟩ := h5 o p (by simpa using hp)
    exact ⟨a1, by rw [a2]; decide⟩
  · obtain ⟨i, hi, rfl⟩ := List.getElem_of_mem hp
    exact (h5 i _ (by rw [List.nil_append]; exact List.getElem?_eq_getElem hi)).2

/-! ### What the other process wrote -/

/-- the same blocks, belonging to no bucket of ours -/
def foreign (n : Nat) (L : List PBlk) : List PBlk := L.map fun b => { b with owner := n + b.owner }

theorem foreign_own_ge (n o : Nat) (L : List PBlk) : ownOf (n + o) (foreign n L) = foreign n (ownOf o L) := by
  unfold ownOf foreign
  rw [List.filter_map]
  congr 1
  apply List.filter_congr
  intro b _
  simp

theorem foreign_own_lt {n o : Nat} (ho : o < n) (L : List PBlk) : ownOf o (foreign n L) = [] := by
  apply ownOf_other
  intro b hb
  obtain ⟨a, _, rfl⟩ := List.mem_map.mp hb
  show n + a.owner ≠ o
  omega

theorem foreign_first (n : Nat) (L : List PBlk) : firstPos (foreign n L) = firstPos L := by
  cases L <;> rfl

theorem foreign_chain {n : Nat} {f : Bytes} : ∀ {L : List PBlk}, Chain f L → Chain f (foreign n L)
  | [], _ => trivial
  | _ :: _, h => ⟨h.1, by rw [← foreign] at *; rw [foreign_first]; exact h.2.1, foreign_chain h.2.2⟩

theorem foreign_payload (n : Nat) (L : List PBlk) : (foreign n L).map PBlk.payload = L.map PBlk.payload := by
  unfold foreign; rw [List.map_map]; rfl

theorem Laid.foreign {f : Bytes} {L M : List PBlk} (n : Nat) (h : Laid f (L ++ M)) : Laid f (L ++ foreign n M) := by
  refine ⟨?_, ?_, ?_⟩
  · have := h.apart
    rw [List.pairwise_append] at this ⊢
    refine ⟨this.1, ?_, ?_⟩
    · unfold Dupi.foreign; rw [List.pairwise_map]; exact this.2.1
    · intro a ha b hb
      obtain ⟨c, hc, rfl⟩ := List.mem_map.mp hb
      exact this.2.2 a ha c hc
  · intro b hb
    rcases List.mem_append.mp hb with hb | hb
    · exact h.inside b (by simp [hb])
    · obtain ⟨c, hc, rfl⟩ := List.mem_map.mp hb
      exact h.inside c (by simp [hc])
  · intro b hb
    rcases List.mem_append.mp hb with hb | hb
    · exact h.here b (by simp [hb])
    · obtain ⟨c, hc, rfl⟩ := List.mem_map.mp hb
      exact h.here c (by simp [hc])

theorem place_append (a b : List Blk) : ∀ off, place off (a ++ b) = place off a ++ place (off + sizes a) b := by
  induction a with
  | nil => intro off; rfl
  | cons c a ih =>
    intro off
    simp only [List.cons_append, place, ih, sizes, List.map_cons, List.sum_cons]
    rw [Nat.add_assoc]

theorem place_owner (bs : List Blk) : ∀ off, ∀ b ∈ place off bs, ∃ c ∈ bs, b.owner = c.owner := by
  induction bs with
  | nil => intro off b hb; simp [place] at hb
  | cons c bs ih =>
    intro off b hb
    rcases List.mem_cons.mp hb with rfl | hb
    · exact ⟨c, by simp, rfl⟩
    · obtain ⟨d, h1, h2⟩ := ih _ b hb
      exact ⟨d, by simp [h1], h2⟩

/-- a chain of two parts -/
theorem Chain.right {f : Bytes} : ∀ {a b : List PBlk}, Chain f (a ++ b) → Chain f b
  | [], _, h => h
  | _ :: _, _, h => Chain.right h.2.2

theorem Chain.left {f : Bytes} : ∀ {a b : List PBlk}, Chain f (a ++ b) → Linked f a
  | [], _, _ => trivial
  | [_], _, _ => trivial
  | _ :: b :: r, _, h => ⟨h.2.1, Chain.left (a := b :: r) h.2.2⟩

theorem Chain.join {f : Bytes} : ∀ {a b : List PBlk}, Chain f (a ++ b) → ∀ k, a.getLast? = some k → At f k.link (linkBytes (firstPos b))
  | [], _, _, k, hk => by simp at hk
  | [a], b, h, k, hk => by simp at hk; subst hk; exact h.2.1
  | _ :: b :: r, _, h, k, hk => Chain.join (a := b :: r) h.2.2 k (by simpa using hk)

theorem Chain.glue {f : Bytes} : ∀ {a b : List PBlk}, (∀ c ∈ a, At f c.pos (c.hdr ++ c.payload)) → Linked f a →
    (∀ k, a.getLast? = some k → At f k.link (linkBytes (firstPos b))) → Chain f b → Chain f (a ++ b)
  | [], _, _, _, _, h => h
  | [a], b, h, _, h3, h4 => ⟨h a (by simp), h3 a rfl, h4⟩
  | a :: b :: r, c, h, h2, h3, h4 => ⟨h a (by simp), h2.1, Chain.glue (a := b :: r) (fun c hc => h c (by simp [hc])) h2.2 (fun c hc => h3 c (by simpa using hc)) h4⟩

theorem Chain.keeps {f g : Bytes} : ∀ {own : List PBlk}, Chain f own → (∀ b ∈ own, At g b.pos (b.hdr ++ b.payload)) → KeepsLinks f g own → Chain g own
  | [], _, _, _ => trivial
  | a :: _, h, h2, h3 => ⟨h2 a (by simp), h3 a (by simp) _ rfl h.2.1, Chain.keeps h.2.2 (fun c hc => h2 c (by simp [hc])) (fun c hc => h3 c (by simp [hc]))⟩

/-- what a reader finds in a bucket: `base` was there when both began, the first one made it `a`, the second one `b` -/
def twinRead (base a b : List UInt32) : List UInt32 := if b ≠ base then b else if base = [] then [] else a

theorem ClosedRep.deltas {n : Nat} {bs : List Blk} {ps : List Poster} {vals : Nat → List UInt32} (h : ClosedRep n bs ps vals) {o : Nat} (ho : o < n) :
    flushed o bs = deltasFrom 0 (vals o) := by
  have hlt : o < ps.length := by rw [h.len]; exact ho
  obtain ⟨h1, h2⟩ := h.rep o _ (List.getElem?_eq_getElem hlt)
  obtain ⟨ds, h3, h4⟩ := h1.pend
  have hds : ds = [] := by
    false_or_by_contra; rename_i hne
    exact encDeltas_ne hne (by rw [← h3]; exact h2)
  rw [← h4, hds, List.append_nil]

/-- the chain of a closed shard -/
theorem closed_chain {bs : List Blk} (o : Nat) : Chain (render 0 bs) (ownOf o (place 0 bs)) := by
  have hcov : Covers o (render 0 bs) 0 bs := by
    have := Covers.render o bs [] []
    simpa using this
  exact place_chain bs hcov

/-- the second process when the first one has closed -/
theorem ClosedRep.twin {n : Nat} {bs : List Blk} {ps : List Poster} {vals : Nat → List UInt32} (ex : List Blk) (h : ClosedRep n bs ps vals) :
    TShardRep vals (fun o => firstPos (ownOf o (place (sizes bs) ex))) n ⟨ps, render 0 (bs ++ ex)⟩ (place 0 bs ++ foreign n (place (sizes bs) ex)) vals := by
  have hlaid : Laid (render 0 (bs ++ ex)) (place 0 (bs ++ ex)) := by
    have := place_laid (bs ++ ex) []
    simpa using this
  rw [place_append, Nat.zero_add] at hlaid
  refine ⟨hlaid.foreign n, h.len, fun o p hp => ?_⟩
  have ho : o < n := by rw [← h.len]; exact (List.getElem?_eq_some_iff.mp hp).1
  obtain ⟨hr, hpe⟩ := h.rep o p hp
  have hown : ownOf o (place 0 bs ++ foreign n (place (sizes bs) ex)) = ownOf o (place 0 bs) := by
    rw [ownOf_append, foreign_own_lt ho, List.append_nil]
  have hch : Chain (render 0 (bs ++ ex)) (ownOf o (place 0 bs) ++ ownOf o (place (sizes bs) ex)) := by
    have := closed_chain (bs := bs ++ ex) o
    rwa [place_append, Nat.zero_add, ownOf_append] at this
  refine ⟨⟨?_, ?_, ?_, ?_, fun e => absurd hpe e, List.prefix_refl _, hr.current, hr.total, ?_⟩, by rw [hpe]; decide⟩
  · rw [hown]; exact hr.link.trans (place_lastLink o bs 0).symm
  · rw [hown, place_first]; exact hr.head
  · rw [hown]; exact hch.left
  · rw [hown, if_pos rfl]; intro _; exact hch.join
  · rw [hown, place_payloads]
    refine ⟨(bs.filter (·.owner = o)).map Blk.deltas, [], by simp [Blk.payload, Function.comp], ?_, hpe, ?_⟩
    · intro e he
      obtain ⟨b, hb, rfl⟩ := List.mem_map.mp he
      have := h.wf b (List.mem_filter.mp hb |>.1)
      exact ⟨this.ne, this.small⟩
    · rw [← h.deltas ho]; simp [flushed, List.flatMap_def]

/-- a closed shard of the second process: what its posting lists are -/
theorem TShardRep.delivers {n : Nat} {bs ex : List Blk} {ps0 psA ps : List Poster} {vals valsA valsB : Nat → List UInt32} {f : Bytes} {M : List PBlk}
    (h0 : ClosedRep n bs ps0 vals) (hA : ClosedRep n (bs ++ ex) psA valsA)
    (hg : TGrow n (render 0 (bs ++ ex)) (place 0 bs ++ foreign n (place (sizes bs) ex)) f M)
    (h : TShardRep vals (fun o => firstPos (ownOf o (place (sizes bs) ex))) n ⟨ps, f⟩ (place 0 bs ++ foreign n (place (sizes bs) ex) ++ M) valsB)
    (hps : ∀ p ∈ ps, p.posts = []) (h63 : f.length < 2 ^ 63) {o : Nat} {p : Poster} (hp : ps[o]? = some p) :
    Delivers f (Posts.new p.head) (twinRead (vals o) (valsA o) (valsB o)) true := by
  have ho : o < n := by rw [← h.len]; exact (List.getElem?_eq_some_iff.mp hp).1
  obtain ⟨hr, _⟩ := h.rep o p hp
  have hpe := hps p (List.mem_of_getElem? hp)
  obtain ⟨dss, ds, c1, c2, c3, c4⟩ := hr.content
  have hds : ds = [] := by
    false_or_by_contra; rename_i hne
    exact encDeltas_ne hne (by rw [← c3]; exact hpe)
  rw [hds, List.append_nil] at c4
  generalize hL : place 0 bs ++ foreign n (place (sizes bs) ex) ++ M = L at *
  have hlaid : Laid f L := h.laid
  have hhere : ∀ b ∈ ownOf o L, At f b.pos (b.hdr ++ b.payload) := fun b hb => hlaid.here b (mem_ownOf.mp hb).1
  have hstop : ∀ b ∈ L, b.stop < 2 ^ 63 := fun b hb => by
    have : b.stop ≤ f.length := hlaid.inside b hb
    omega
  unfold twinRead
  by_cases hv : valsB o = vals o
  · rw [if_neg (by simp [hv])]
    rw [hv] at c4
    by_cases he : vals o = []
    · rw [if_pos he]
      have hdn : dss = [] := by
        rw [he] at c4
        cases hdc : dss with
        | nil => rfl
        | cons d r =>
          have h1 := (c2 d (by rw [hdc]; simp)).1
          rw [hdc, List.flatten_cons] at c4
          exact absurd (List.append_eq_nil_iff.mp (c4.trans rfl)).1 h1
      have hnil : ownOf o L = [] := by
        rw [hdn] at c1
        exact List.map_eq_nil_iff.mp c1
      exact ⟨[], [], trivial, by simp, by rw [Posts.new, hr.head, hnil], by simp [Posts.new], by simp [GoodPayloads], by simp [Posts.new, runSum], by simp⟩
    · rw [if_neg he]
      have hnn : ownOf o L ≠ [] := by
        intro e
        rw [e] at c1
        have : dss = [] := List.map_eq_nil_iff.mp c1.symm
        rw [this] at c4
        have := congrArg List.length c4
        rw [deltasFrom_length] at this
        exact he (List.length_eq_zero_iff.mp this.symm)
      have hfol : ownOf (n + o) L = foreign n (ownOf o (place (sizes bs) ex)) := by
        rw [← hL, hg.own (by omega), ownOf_append, foreign_own_ge, ownOf_other (N := place 0 bs), List.nil_append]
        intro b hb e
        have := place_owner bs 0 b hb
        obtain ⟨c, hc, hco⟩ := this
        have := h0.owner c hc
        omega
      have hchA : Chain (render 0 (bs ++ ex)) (foreign n (ownOf o (place (sizes bs) ex))) := by
        have := closed_chain (bs := bs ++ ex) o
        rw [place_append, Nat.zero_add, ownOf_append] at this
        exact foreign_chain this.right
      have hchB : Chain f (foreign n (ownOf o (place (sizes bs) ex))) := by
        refine hchA.keeps (fun b hb => hlaid.here b ?_) ?_
        · rw [← hfol] at hb; exact (mem_ownOf.mp hb).1
        · have := hg.keep (n + o) (by omega)
          rwa [← hg.own (by omega), hL, hfol] at this
      have hfin : ∀ k, (ownOf o L).getLast? = some k → At f k.link (linkBytes (firstPos (foreign n (ownOf o (place (sizes bs) ex))))) := by
        intro k hk
        have := hr.fin hpe k hk
        rw [if_pos hv] at this
        rw [foreign_first]; exact this
      have hchain := Chain.glue hhere hr.linked hfin hchB
      refine ⟨_, dss ++ (ex.filter (·.owner = o)).map Blk.deltas, hchain, ?_, ?_, by simp [Posts.new], ?_, ?_, ?_⟩
      · intro b hb
        rcases List.mem_append.mp hb with hb | hb
        · exact hstop b (mem_ownOf.mp hb).1
        · rw [← hfol] at hb; exact hstop b (mem_ownOf.mp hb).1
      · rw [Posts.new, hr.head]
        cases hoL : ownOf o L with
        | nil => exact absurd hoL hnn
        | cons a r => rfl
      · intro e he
        rcases List.mem_append.mp he with he | he
        · exact c2 e he
        · obtain ⟨b, hb, rfl⟩ := List.mem_map.mp he
          have := hA.wf b (by simp [(List.mem_filter.mp hb).1])
          exact ⟨this.ne, this.small⟩
      · have e2 : dss.flatten ++ ((ex.filter (·.owner = o)).map Blk.deltas).flatten = deltasFrom 0 (valsA o) := by
          rw [← hA.deltas ho, c4, ← h0.deltas ho]
          simp [flushed, List.flatMap_def]
        rw [List.flatten_append, e2]
        simp [Posts.new, runSum_deltasFrom]
      · simp only [if_true]
        rw [List.map_append, List.map_append, c1, foreign_payload, place_payloads]
        simp [Blk.payload, Function.comp]
  · rw [if_pos hv]
    have hchain : Chain f (ownOf o L) := .of hhere hr.linked (fun b hb => by
      have := hr.fin hpe b hb
      rwa [if_neg hv] at this)
    exact ⟨ownOf o L, dss, hchain, fun b hb => hstop b (mem_ownOf.mp hb).1, by rw [Posts.new, hr.head], by simp [Posts.new], c2,
      by simp [Posts.new, c4, runSum_deltasFrom], by simpa using c1⟩

end Dupi
