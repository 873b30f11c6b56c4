import Verif.Proof.LiveRead
/-! # The posting files while documents are added -/

namespace Dupi
open Spec

theorem Growing.refl (bs : List Blk) : Growing bs bs (render 0 bs) := ⟨bs, List.prefix_refl _, List.prefix_refl _, List.prefix_refl _⟩

theorem Growing.left {a b c : List Blk} {f : Bytes} (h : Growing a b f) : Growing a (b ++ c) f := by
  obtain ⟨B, h1, h2, h3⟩ := h
  exact ⟨B, h1, h2.trans (List.prefix_append _ _), h3⟩

theorem Growing.right {a b c : List Blk} {f : Bytes} (h : Growing (a ++ b) c f) : Growing a c f := by
  obtain ⟨B, h1, h2, h3⟩ := h
  exact ⟨B, (List.prefix_append _ _).trans h1, h2, h3⟩

/-- the writes `ws` lead from the blocks `bs` to the blocks `bs'`, with files on their way in between -/
def Grows (bs bs' : List Blk) (ws : List (Nat × Bytes)) : Prop :=
  Poster.applyWrites (render 0 bs) ws = render 0 bs' ∧ bs <+: bs' ∧ ∀ ws', ws' <+: ws → Growing bs bs' (Poster.applyWrites (render 0 bs) ws')

theorem Grows.nil (bs : List Blk) : Grows bs bs [] := by
  refine ⟨rfl, List.prefix_refl _, fun ws' h => ?_⟩
  rw [List.prefix_nil.mp h]
  exact Growing.refl bs

theorem prefix_append_cases {α : Type} {l a b : List α} (h : l <+: a ++ b) : l <+: a ∨ ∃ r, l = a ++ r ∧ r <+: b := by
  by_cases hl : l.length ≤ a.length
  · exact .inl (List.prefix_of_prefix_length_le h (List.prefix_append _ _) hl)
  · obtain ⟨r, rfl⟩ := List.prefix_of_prefix_length_le (List.prefix_append a b) h (by omega)
    exact .inr ⟨r, rfl, (List.prefix_append_right_inj a).mp h⟩

theorem Grows.trans {a b c : List Blk} {v w : List (Nat × Bytes)} (h1 : Grows a b v) (h2 : Grows b c w) : Grows a c (v ++ w) := by
  obtain ⟨p1, ⟨x, rfl⟩, p3⟩ := h1
  obtain ⟨q1, ⟨y, rfl⟩, q3⟩ := h2
  refine ⟨by rw [applyWrites_append, p1, q1], ⟨x ++ y, by simp⟩, fun ws' h => ?_⟩
  rcases prefix_append_cases h with h | ⟨r, rfl, h'⟩
  · exact (p3 _ h).left
  · rw [applyWrites_append, p1]
    exact (q3 _ h').right

theorem prefix_two {α : Type} {a b : α} {l : List α} (h : l <+: [a, b]) : l = [] ∨ l = [a] ∨ l = [a, b] := by
  rcases List.prefix_cons_iff.mp h with h | ⟨t, e, h1⟩
  · exact .inl h
  · rcases List.prefix_cons_iff.mp h1 with h2 | ⟨t', e', h2⟩
    · exact .inr (.inl (by rw [e, h2]))
    · exact .inr (.inr (by rw [e, e', List.prefix_nil.mp h2]))

/-- flushing a poster -/
theorem flushWrites_grows {bs : List Blk} {o : Nat} {p p' : Poster} (hlink : p.link = lastLink o 0 bs) {ds : List UInt32} (hds : p.posts = encDeltas ds)
    {ws : List (Nat × Bytes)} (hw : p.flushWrites (render 0 bs).length = .ok (ws, p')) {ex : List Blk}
    (hf : Poster.applyWrites (render 0 bs) ws = render 0 (bs ++ ex)) : Grows bs (bs ++ ex) ws := by
  refine ⟨hf, List.prefix_append _ _, ?_⟩
  by_cases hp : p.posts = []
  · simp only [Poster.flushWrites, hp, if_true, Except.ok.injEq, Prod.mk.injEq] at hw
    rw [← hw.1]
    intro ws' h'
    rw [List.prefix_nil.mp h']
    exact (Growing.refl bs).left
  · have hl : (render 0 bs).length = sizes bs := render_length bs 0
    have hpay : (⟨o, ds⟩ : Blk).payload = p.posts := hds.symm
    have hbuf : (p.posts ++ be64 (i64ToU64 (-1))).length = p.posts.length + 8 := by rw [List.length_append, be64_length]
    have hhdr : putVarint (((p.posts ++ be64 (i64ToU64 (-1))).length : Nat) : Int) = (⟨o, ds⟩ : Blk).hdr := by rw [hbuf, Blk.hdr, hpay]
    have hrender := render_append ⟨o, ds⟩ bs 0
    rw [hpay] at hrender
    have hpl : (patched o 0 bs).length = sizes bs := by
      have := congrArg List.length hrender
      rw [render_length] at this
      simp only [List.length_append, linkBytes_length] at this
      have e : sizes (bs ++ [⟨o, ds⟩]) = sizes bs + (⟨o, ds⟩ : Blk).size := by simp [sizes]
      rw [e, Blk.size, hpay] at this
      omega
    -- the two appended pieces
    have hend : ∀ F, F = patched o 0 bs → ∀ ws', ws' <+: [(sizes bs, (⟨o, ds⟩ : Blk).hdr), (sizes bs + (⟨o, ds⟩ : Blk).hdr.length, p.posts ++ linkBytes (-1))] →
        Poster.applyWrites F ws' <+: render 0 (bs ++ [⟨o, ds⟩]) := by
      intro F hF ws' h'
      have e1 : writeAt F (sizes bs) (⟨o, ds⟩ : Blk).hdr = F ++ (⟨o, ds⟩ : Blk).hdr := by rw [← hpl, ← hF, writeAt_end]
      have e2 : writeAt (F ++ (⟨o, ds⟩ : Blk).hdr) (sizes bs + (⟨o, ds⟩ : Blk).hdr.length) (p.posts ++ linkBytes (-1)) =
          F ++ (⟨o, ds⟩ : Blk).hdr ++ (p.posts ++ linkBytes (-1)) := by
        rw [← hpl, ← hF, show F.length + (⟨o, ds⟩ : Blk).hdr.length = (F ++ (⟨o, ds⟩ : Blk).hdr).length by simp, writeAt_end]
      rw [hrender, show (⟨o, ds⟩ : Blk).owner = o from rfl, ← hF]
      rcases prefix_two h' with rfl | rfl | rfl
      · exact List.prefix_append _ _
      · simp only [Poster.applyWrites, List.foldl_cons, List.foldl_nil, e1]
        exact ⟨p.posts ++ linkBytes (-1), by simp⟩
      · simp only [Poster.applyWrites, List.foldl_cons, List.foldl_nil, e1, e2]
        rw [List.append_assoc]
        exact List.prefix_refl _
    have hfin : ∀ F, F = patched o 0 bs →
        Poster.applyWrites F [(sizes bs, (⟨o, ds⟩ : Blk).hdr), (sizes bs + (⟨o, ds⟩ : Blk).hdr.length, p.posts ++ linkBytes (-1))] = render 0 (bs ++ [⟨o, ds⟩]) := by
      intro F hF
      refine (hend F hF _ (List.prefix_refl _)).eq_of_length ?_
      have e1 : writeAt F (sizes bs) (⟨o, ds⟩ : Blk).hdr = F ++ (⟨o, ds⟩ : Blk).hdr := by rw [← hpl, ← hF, writeAt_end]
      have e2 : writeAt (F ++ (⟨o, ds⟩ : Blk).hdr) (sizes bs + (⟨o, ds⟩ : Blk).hdr.length) (p.posts ++ linkBytes (-1)) =
          F ++ (⟨o, ds⟩ : Blk).hdr ++ (p.posts ++ linkBytes (-1)) := by
        rw [← hpl, ← hF, show F.length + (⟨o, ds⟩ : Blk).hdr.length = (F ++ (⟨o, ds⟩ : Blk).hdr).length by simp, writeAt_end]
      simp only [Poster.applyWrites, List.foldl_cons, List.foldl_nil, e1, e2]
      rw [hrender, show (⟨o, ds⟩ : Blk).owner = o from rfl, ← hF]
      simp
    have key : ∀ ws0, (∀ ws', ws' <+: ws0 → Poster.applyWrites (render 0 bs) ws' <+: render 0 (bs ++ [⟨o, ds⟩]) ∨ ws' = []) →
        render 0 (bs ++ ex) = render 0 (bs ++ [⟨o, ds⟩]) → ∀ ws', ws' <+: ws0 → Growing bs (bs ++ ex) (Poster.applyWrites (render 0 bs) ws') := by
      intro ws0 h0 he ws' h'
      rcases h0 ws' h' with h1 | rfl
      · exact ⟨bs ++ ex, List.prefix_append _ _, List.prefix_refl _, by rw [he]; exact h1⟩
      · exact (Growing.refl bs).left
    simp only [Poster.flushWrites, hp, if_false, hhdr, hl] at hw
    by_cases hlk : p.link = -1
    · simp only [hlk, ne_eq, not_true, if_false, bind, Except.bind, pure, Except.pure, List.nil_append, Except.ok.injEq, Prod.mk.injEq] at hw
      rw [← hw.1] at hf ⊢
      have hpa : render 0 bs = patched o 0 bs := by rw [patched, if_pos (by rw [← hlink]; exact hlk)]
      exact key _ (fun ws' h' => .inl (hend _ hpa ws' h')) (hf.symm.trans (hfin _ hpa))
    · have h0 : ¬ p.link < 0 := by
        rcases lastLink_ge o bs 0 with e | e
        · rw [hlink] at hlk; exact absurd e hlk
        · rw [hlink]; omega
      simp only [hlk, ne_eq, not_false_eq_true, if_true, h0, if_false, bind, Except.bind, pure, Except.pure,
          List.singleton_append, Except.ok.injEq, Prod.mk.injEq] at hw
      rw [← hw.1] at hf ⊢
      have hpa : writeAt (render 0 bs) p.link.toNat (be64 (UInt64.ofNat (sizes bs))) = patched o 0 bs := by
        rw [patched, if_neg (by rw [← hlink]; exact hlk), ← hlink, linkBytes_nat]
        simp
      refine key _ (fun ws' h' => ?_) (hf.symm.trans (hfin _ hpa))
      rcases List.prefix_cons_iff.mp h' with h1 | ⟨t, e, h1⟩
      · exact .inr h1
      · rw [e]; exact .inl (hend _ hpa t h1)

theorem addPostWrites_grows {bs : List Blk} {o : Nat} {p q : Poster} {vals : List UInt32} (h : PosterRep bs o p vals) {v : UInt32}
    {ws : List (Nat × Bytes)} (hw : p.addPostWrites v (render 0 bs) = .ok ws) {ex : List Blk}
    (hq : p.addPost v (render 0 bs) = .ok (q, render 0 (bs ++ ex))) : Grows bs (bs ++ ex) ws := by
  obtain ⟨ws', e1, e2⟩ := addPostWrites_spec hq
  rw [hw] at e1
  injection e1 with e1
  subst e1
  have hnil : ws = [] → Grows bs (bs ++ ex) ws := by
    rintro rfl
    refine ⟨e2.symm, List.prefix_append _ _, fun ws' h' => ?_⟩
    rw [List.prefix_nil.mp h']
    exact (Growing.refl bs).left
  unfold Poster.addPostWrites at hw
  split at hw
  · simp only [Except.ok.injEq] at hw; exact hnil hw.symm
  · simp only [] at hw
    split at hw
    · cases hf : Poster.flushWrites { p with current := v, total := p.total + 1, posts := p.posts ++ putUvarint (v - p.current).toNat } (render 0 bs).length with
      | error e => rw [hf] at hw; simp [Except.map] at hw
      | ok r =>
        obtain ⟨ws', p'⟩ := r
        rw [hf] at hw
        simp only [Except.map, Except.ok.injEq] at hw
        subst hw
        obtain ⟨ds, d1, d2⟩ := h.pend
        refine flushWrites_grows (p := { p with current := v, total := p.total + 1, posts := p.posts ++ putUvarint (v - p.current).toNat })
          (by exact h.link) (ds := ds ++ [v - p.current]) ?_ hf e2.symm
        rw [encDeltas_append, d1]; simp [encDeltas]
    · simp only [Except.ok.injEq] at hw; exact hnil hw.symm

/-- the writes of a shard's goroutine -/
theorem ShardOn.addAll_grows {n : Nat} (posts : List (UInt32 × Nat)) : ∀ {bs : List Blk} {x : ShardIndexer} {old : List (UInt32 × Nat)} {ws : List (Nat × Bytes)},
    ShardOn bs n x (postings old) → (∀ q ∈ posts, q.2 < n) → (∀ b, (postings (old ++ posts) b).length < 2 ^ 32) → x.addAllWrites posts = .ok ws →
    ∃ y ex, x.addAll posts = .ok y ∧ ShardOn (bs ++ ex) n y (postings (old ++ posts)) ∧ Grows bs (bs ++ ex) ws := by
  induction posts with
  | nil =>
    intro bs x old ws h _ _ hw
    simp only [ShardIndexer.addAllWrites, Except.ok.injEq] at hw
    subst hw
    exact ⟨x, [], rfl, by simpa using h, by simpa using Grows.nil bs⟩
  | cons q posts ih =>
    obtain ⟨d, b⟩ := q
    intro bs x old ws h hb hlen hw
    have hassoc : old ++ (d, b) :: posts = (old ++ [(d, b)]) ++ posts := by simp
    rw [hassoc] at hlen ⊢
    have hpl : ∀ o, (pushVal (postings old) d b o).length ≤ (postings (old ++ [(d, b)] ++ posts) o).length := by
      intro o; rw [pushVal_postings]; exact postings_mono _ _ _
    obtain ⟨y, ex, h2, h3, h4⟩ := h.add d b (hb (d, b) (by simp)) (Nat.lt_of_le_of_lt (hpl b) (hlen b))
    rw [pushVal_postings] at h3
    simp only [ShardIndexer.addAllWrites, bind, Except.bind, pure, Except.pure] at hw
    cases h1 : x.addWrites d b with
    | error e => simp [h1] at hw
    | ok ws1 =>
      simp only [h1, h2] at hw
      cases h5 : y.addAllWrites posts with
      | error e => simp [h5] at hw
      | ok ws2 =>
        simp only [h5, Except.ok.injEq] at hw
        subst hw
        obtain ⟨z, ex', g1, g2, g3⟩ := ih h3 (fun q hq => hb q (by simp [hq])) hlen h5
        refine ⟨z, ex ++ ex', by simp [ShardIndexer.addAll, h2, g1, bind, Except.bind], by rw [← List.append_assoc]; exact g2, ?_⟩
        rw [← List.append_assoc]
        refine Grows.trans ?_ g3
        obtain ⟨p, hp⟩ : ∃ p, x.ind[b]? = some p := ⟨_, List.getElem?_eq_getElem (by rw [h.2.2.2.1]; exact hb (d, b) (by simp))⟩
        have hrep := (h.2.2.2.2 b p hp).1
        simp only [ShardIndexer.addWrites, hp, h.1] at h1
        simp only [ShardIndexer.add, hp, h.1, bind, Except.bind, pure, Except.pure] at h2
        cases h6 : p.addPost d (render 0 bs) with
        | error e => simp [h6] at h2
        | ok r =>
          obtain ⟨p', f⟩ := r
          simp only [h6, Except.ok.injEq] at h2
          have hf : f = render 0 (bs ++ ex) := by rw [← h3.1, ← h2]
          rw [hf] at h6
          exact addPostWrites_grows hrep h1 h6

/-- flushing all posters -/
theorem flushIndWrites_grows (vals : Nat → List UInt32) (ps : List Poster) : ∀ (done : List Poster) (bs : List Blk) (ws : List (Nat × Bytes)),
    (∀ b ∈ bs, b.WF) → (∀ (o : Nat) p, (done ++ ps)[o]? = some p → PosterRep bs o p (vals o) ∧ p.posts.length < 512) → (∀ p ∈ done, p.posts = []) →
    ShardIndexer.flushIndWrites ps (render 0 bs) = .ok ws →
    ∃ ex, Grows bs (bs ++ ex) ws ∧ (∀ b ∈ bs ++ ex, b.WF) ∧ ∀ o, o < (done ++ ps).length → flushed o (bs ++ ex) = deltasFrom 0 (vals o) := by
  induction ps with
  | nil =>
    intro done bs ws hwf hrep hd hw
    simp only [ShardIndexer.flushIndWrites, Except.ok.injEq] at hw
    subst hw
    refine ⟨[], by simpa using Grows.nil bs, by simpa using hwf, fun o ho => ?_⟩
    obtain ⟨p, hp⟩ : ∃ p, (done ++ [])[o]? = some p := ⟨_, List.getElem?_eq_getElem ho⟩
    obtain ⟨ds, h1, h2⟩ := (hrep o p hp).1.pend
    have hpe := hd p (by simpa using List.mem_of_getElem? hp)
    have hds : ds = [] := by
      false_or_by_contra
      rename_i hne
      exact encDeltas_ne hne (by rw [← h1]; exact hpe)
    rw [hds] at h2
    simpa using h2
  | cons p ps ih =>
    intro done bs ws hwf hrep hd hw
    have hp : (done ++ p :: ps)[done.length]? = some p := by simp
    obtain ⟨hr, hs⟩ := hrep _ p hp
    obtain ⟨p', bs', h1, h2, h3, h4, h5, ex, rfl, h5'⟩ := flushTo_spec hr hwf (by omega)
    simp only [ShardIndexer.flushIndWrites, bind, Except.bind, pure, Except.pure] at hw
    cases hf : p.flushWrites (render 0 bs).length with
    | error e => simp [hf] at hw
    | ok r =>
      obtain ⟨ws1, p''⟩ := r
      simp only [hf] at hw
      simp only [Poster.flushTo, hf, bind, Except.bind, pure, Except.pure, Except.ok.injEq, Prod.mk.injEq] at h1
      obtain ⟨rfl, h1⟩ := h1
      rw [h1] at hw
      cases hrest : ShardIndexer.flushIndWrites ps (render 0 (bs ++ ex)) with
      | error e => simp [hrest] at hw
      | ok ws2 =>
        simp only [hrest, Except.ok.injEq] at hw
        subst hw
        obtain ⟨ds, d1, _⟩ := hr.pend
        have hg := flushWrites_grows hr.link d1 hf h1
        have hset : ∀ (o : Nat) q, (done ++ [p''] ++ ps)[o]? = some q → PosterRep (bs ++ ex) o q (vals o) ∧ q.posts.length < 512 := by
          intro o q hq
          by_cases e : o = done.length
          · subst e
            have : q = p'' := by simpa using hq.symm
            subst this
            exact ⟨h3, by simp [h4]⟩
          · have hq' : (done ++ p :: ps)[o]? = some q := by
              rw [← hq]
              by_cases hlt : o < done.length
              · rw [List.append_assoc, List.getElem?_append_left hlt, List.getElem?_append_left hlt]
              · have : done.length < o := by omega
                rw [List.append_assoc, List.getElem?_append_right (by omega), List.getElem?_append_right (by omega)]
                obtain ⟨k, hk⟩ : ∃ k, o - done.length = k + 1 := ⟨o - done.length - 1, by omega⟩
                simp [hk]
            exact ⟨h5 o q _ e (hrep o q hq').1, (hrep o q hq').2⟩
        obtain ⟨ex', g1, g2, g3⟩ := ih (done ++ [p'']) (bs ++ ex) ws2 h2 hset (by
          intro q hq
          rcases List.mem_append.mp hq with hq | hq
          · exact hd q hq
          · rw [List.mem_singleton.mp hq]; exact h4) hrest
        refine ⟨ex ++ ex', ?_, by rw [← List.append_assoc]; exact g2, fun o ho => ?_⟩
        · rw [← List.append_assoc]; exact hg.trans g1
        · rw [← List.append_assoc]; exact g3 o (by simpa using ho)

/-! ### Sessions -/

theorem posOps_prefix {j : Nat} {ws : List (Nat × Bytes)} {s : List Op} (h : s <+: ShardIndexer.posOps j ws) : ∃ ws', ws' <+: ws ∧ s = ShardIndexer.posOps j ws' := by
  refine ⟨ws.take s.length, List.take_prefix _ _, ?_⟩
  rw [ShardIndexer.posOps, List.map_take]
  exact (List.prefix_iff_eq_take.mp h)

section
variable {u : Uni} {J : CfgCodec} {c : Config} {old : List Document} {d : Dir} {x : Indexer} {cwd : Bytes} {new : List Doc} {tr : Trace} {d' : Dir}
variable (hU : Usable J c) (A : Appending u J c old d x cwd new tr d')
include hU A

/-- the posting file of a shard through a session -/
theorem Appending.grows {j : Nat} (hj : j < c.numShards.toNat) : ∃ (bs bs' : List Blk) (ps : List Poster),
    d (.pos j) = some (render 0 bs) ∧ d (.iix j) = some (ps.flatMap ShardIndexer.iixEntry) ∧ ClosedRep 65536 bs ps (postings (shardPosts u c j 1 old)) ∧
    (∀ b ∈ bs', b.WF) ∧ sizes bs' < 2 ^ 63 ∧ bs <+: bs' ∧ d' (.pos j) = some (render 0 bs') ∧
    (∀ o, o < 65536 → flushed o bs' = deltasFrom 0 (postings (shardPosts u c j 1 (old ++ added cwd new)) o)) ∧
    (∀ s, s <+: tr.serve j → ∃ f, onFiles (d (.pos j)) s = some f ∧ Growing bs bs' f) ∧
    (∀ s, s <+: opsOn (.pos j) (tr.shard j) → ∃ f, onFiles (onFiles (d (.pos j)) (tr.serve j)) s = some f ∧ Growing bs bs' f) := by
  obtain ⟨bs, ps, ws, wsc, ps', y, ex, h1, h2, h3, h4, h5, h6, h7, h8, h9, h10, h11, ⟨posts, p1, p2, p3, p4⟩, _⟩ := A.served hU hj
  have hon : ShardOn bs 65536 ⟨ps, render 0 bs⟩ (postings (shardPosts u c j 1 old)) :=
    ⟨rfl, h3.wf, h3.owner, h3.len, fun o p hp => ⟨(h3.rep o p hp).1, by simp [(h3.rep o p hp).2]⟩⟩
  have hids := A.fits.ids
  have hlen : ∀ b, (postings (shardPosts u c j 1 (old ++ added cwd new)) b).length < 2 ^ 32 :=
    fun b => postings_shardPosts_length u c j hj _ (by omega) b
  rw [p1] at hlen
  obtain ⟨y', ex', q1, q2, q3⟩ := hon.addAll_grows posts p2 hlen p4
  rw [p3] at q1
  injection q1 with q1
  subst q1
  obtain ⟨e1, e2, e3, e4, e5⟩ := q2
  rw [e1] at h11
  obtain ⟨ex2, g1, g2, g3⟩ := flushIndWrites_grows (postings (shardPosts u c j 1 old ++ posts)) y.ind [] (bs ++ ex') wsc e2 (by simpa using e5) (by simp) h11
  obtain ⟨gt1, gt2, gt3⟩ := q3.trans g1
  obtain ⟨r1, r2, r3⟩ := q3
  obtain ⟨s1, s2, s3⟩ := g1
  have hpos : d' (.pos j) = some (render 0 (bs ++ ex' ++ ex2)) := by
    rw [h7, h1, h5, onFiles_posOps, onFiles_posOps, r1, s1]
  obtain ⟨bsf, psf, f1, f2, f3, f4⟩ := (A.final hU).small A.fits.posts hj
  have hsz : sizes (bs ++ ex' ++ ex2) < 2 ^ 63 := by
    rw [hpos] at f1
    injection f1 with f1
    rw [← f1, render_length] at f4
    exact f4
  refine ⟨bs, bs ++ ex' ++ ex2, ps, h1, h2, h3, g2, hsz, gt2, hpos, fun o ho => ?_, fun s hs => ?_, fun s hs => ?_⟩
  · rw [p1]; exact g3 o (by simpa [e4] using ho)
  · rw [h5] at hs
    obtain ⟨ws', k1, rfl⟩ := posOps_prefix hs
    refine ⟨_, by rw [h1, onFiles_posOps], (r3 _ k1).left⟩
  · have ontrunc : On (.iix j) (.trunc (.iix j) :: Op.writes (.iix j) 0 (ps'.flatMap ShardIndexer.iixChunks)) := by
      intro op h
      rcases List.mem_cons.mp h with rfl | h
      · rfl
      · exact writes_on _ _ _ op h
    rw [h6, opsOn_append, (posOps_on j wsc).opsOn, (ontrunc.off (g := .pos j) nofun).opsOn, List.append_nil] at hs
    obtain ⟨ws', k1, rfl⟩ := posOps_prefix hs
    refine ⟨_, by rw [h1, h5, onFiles_posOps, onFiles_posOps, r1], (s3 _ k1).right⟩

end

end Dupi
