import Verif.Model.Closed
import Verif.Proof.LimAny
import Verif.Proof.ReadFaultsQuery
/-! # Queries on closed files -/

namespace Dupi

/-- reads that fail with something other than `io.EOF` -/
def AllFail (φ : ReadFates) : Prop := ∀ k, ∃ e, φ k = some e ∧ e ≠ .eof

/-- what the next docid of a list is, no file being readable: the end, an error, or one that had been read -/
theorem nextF_shut {φ : ReadFates} (hφ : AllFail φ) (k : Nat) {src : ReadState} {rem : List UInt32} (h : PostsRep src.file src.posts rem) :
    (rem = [] ∧ ∃ k', src.nextF φ k = (k', fail .eof)) ∨
    (rem ≠ [] ∧ ∃ k' e, src.nextF φ k = (k', fail e) ∧ e ≠ .eof) ∨
    ∃ k' id rem' p, rem = id :: rem' ∧ src.nextF φ k = (k', .ok (id, { src with posts := p })) ∧ PostsRep src.file p rem' ∧ src.posts.docids ≠ [] := by
  obtain ⟨o, off, bs, c1, c2, c3, c4, c5, c6⟩ := h
  unfold ReadState.nextF Posts.nextF
  by_cases hi : src.posts.i = src.posts.docids.length
  · by_cases hn : src.posts.nextpos = -1
    · left
      refine ⟨?_, k, ?_⟩
      · rw [c6, hi, List.drop_length, nextOff_owner_none _ _ _ (c4.symm.trans hn)]; rfl
      · simp only [hi, hn, if_true, bind, Except.bind]
    · right; left
      refine ⟨?_, ?_⟩
      · rw [c4] at hn
        obtain ⟨bs1, b, bs2, he, ho, hfl, _⟩ := nextOff_seek o bs _ hn
        have hb := (c2 b (by simp [he])).ne
        intro hc
        rw [c6, he, flushed_seek ho hfl] at hc
        have := congrArg List.length hc
        rw [List.length_append, runSum_length, List.length_append] at this
        have := List.length_pos_iff.mpr hb
        rw [List.length_nil] at *
        omega
      · obtain ⟨e, h1, h2⟩ := hφ k
        simp only [hi, if_true, hn, if_false, Posts.readNextF, readVarintAtF, readVarintAtLoopF, readAtF, h1, bind, Except.bind]
        exact ⟨k + 1, _, rfl, nofun⟩
  · right; right
    have hlt : src.posts.i < src.posts.docids.length := by omega
    rw [List.drop_eq_getElem_cons hlt, List.cons_append] at c6
    refine ⟨k, _, _, { src.posts with i := src.posts.i + 1 }, c6, ?_, ⟨o, off, bs, c1, c2, c3, c4, hlt, rfl⟩, fun hc => by simp [hc] at hlt⟩
    simp only [hi, if_false, bind, Except.bind, List.getElem?_eq_getElem hlt, pure, Except.pure]

theorem docid2Doc_shut {φ : ReadFates} (hφ : AllFail φ) (k : Nat) (x : Index) (id : UInt32) :
    ∃ k' e, x.docid2DocF φ k id = (k', .error (.err e)) ∧ e ≠ .eof := by
  obtain ⟨e, h1, h2⟩ := hφ k
  exact ⟨k + 1, .wrap "docid2Doc" e, by simp only [Index.docid2DocF, Dmd.lookupF, h1, fail], nofun⟩

theorem Blot.next_room (grow : Nat → Nat) (b : Blot) (lim : Bool) (hl : lim = b.docs.isSome) (h : (!lim || b.len < b.cap) = true) : ∃ b', b.next grow lim = .ok b' := by
  obtain ⟨bl, ds⟩ := b
  cases ds with
  | none => subst hl; exact ⟨_, rfl⟩
  | some s =>
    obtain ⟨v, sp⟩ := s
    subst hl
    cases sp with
    | nil => simp [Blot.len, Blot.cap] at h
    | cons d ds => exact ⟨_, rfl⟩

namespace Query

/-- filling a blot from closed files -/
theorem fill_shut {φ : ReadFates} (hφ : AllFail φ) (grow : Nat → Nat) {x : Index} {q : QState} {pos : UInt32} {ff k : Nat} (hff : 0 < ff) {src : ReadState} {rem : List UInt32}
    (h : PostsRep src.file src.posts rem) (b : Blot) (bl : UInt32) :
    (∃ k', fillLoopF φ grow x q pos b.docs.isSome ff k src ⟨bl, b.docs⟩ = .ok (k', ⟨bl, b.docs⟩, q.put pos src, none) ∧ b.len = b.cap ∧ b.docs.isSome = true) ∨
    (rem = [] ∧ ∀ q', advance x q src pos = .ok q' → ∃ k', fillLoopF φ grow x q pos b.docs.isSome ff k src ⟨bl, b.docs⟩ = .ok (k', ⟨bl, b.docs⟩, q', none)) ∨
    ∃ k' b' p rem' e, fillLoopF φ grow x q pos b.docs.isSome ff k src ⟨bl, b.docs⟩ = .ok (k', b', q.put pos { src with posts := p }, some e) ∧ e ≠ .eof ∧
      PostsRep src.file p rem' ∧ rem' <:+ rem := by
  obtain ⟨f, rfl⟩ : ∃ f, ff = f + 1 := ⟨ff - 1, by omega⟩
  rw [fillLoopF]
  by_cases hr : (!b.docs.isSome || b.len < b.cap) = true
  · have hr' : (!b.docs.isSome || Blot.len ⟨bl, b.docs⟩ < Blot.cap ⟨bl, b.docs⟩) = true := hr
    rw [if_pos hr']
    right
    rcases nextF_shut hφ k h with ⟨e1, k', e2⟩ | ⟨e1, k', e, e2, e3⟩ | ⟨k', id, rem', p, e1, e2, e3, _⟩
    · left
      refine ⟨e1, fun q' hq' => ⟨k', ?_⟩⟩
      rw [e2]
      simp only [hq', bind, Except.bind, pure, Except.pure]
    · right
      refine ⟨k', ⟨bl, b.docs⟩, src.posts, rem, e, ?_, e3, h, List.suffix_refl _⟩
      rw [e2]
      cases e with
      | eof => exact absurd rfl e3
      | _ => rfl
    · right
      obtain ⟨b', hb'⟩ := Blot.next_room grow ⟨bl, b.docs⟩ b.docs.isSome rfl hr'
      obtain ⟨k2, e, g1, g2⟩ := docid2Doc_shut hφ k' x id
      refine ⟨k2, b', p, rem', e, ?_, g2, e3, ⟨[id], by rw [e1]; rfl⟩⟩
      rw [e2]
      simp only [hb', g1, bind, Except.bind]
  · left
    have hr' : ¬ (!b.docs.isSome || Blot.len ⟨bl, b.docs⟩ < Blot.cap ⟨bl, b.docs⟩) = true := hr
    rw [if_neg hr']
    refine ⟨k, rfl, ?_, ?_⟩
    · simp only [Bool.or_eq_true, Bool.not_eq_true', decide_eq_true_eq, not_or] at hr
      have : b.len ≤ b.cap := by unfold Blot.len Blot.cap; cases b.docs with | none => simp | some s => simp
      omega
    · simp only [Bool.or_eq_true, Bool.not_eq_true', decide_eq_true_eq, not_or, Bool.not_eq_false] at hr
      exact hr.1

section
variable {srt : Sorter} (hsrt : IsSorter srt) {x : Index} {n : Nat} {vals : Nat → Nat → List UInt32} {D : UInt32 → Bytes × UInt32 × UInt32} (hx : Holds srt x n vals D) (hn : n < 2 ^ 32)

theorem maxLoop_set (ss : List (Option ReadState)) : ∀ (i : Nat) (s1 s2 : ReadState), ss[i]? = some (some s1) → s2.total = s1.total → ∀ k m p,
    QState.maxLoop (ss.set i (some s2)) k m p = QState.maxLoop ss k m p := by
  induction ss with
  | nil => intro i s1 s2 h; simp at h
  | cons o ss ih =>
    intro i s1 s2 h e k m p
    cases i with
    | zero => simp at h; subst h; simp [QState.maxLoop, e]
    | succ i =>
      have := ih i s1 s2 (by simpa using h) e
      cases o with
      | none => simp only [List.set_cons_succ, QState.maxLoop, this]
      | some o => simp only [List.set_cons_succ, QState.maxLoop, this]

/-- the list the query is at is read on -/
theorem LInv.put {q : QState} {L : List Place} (h : LInv x n vals q L) {src : ReadState} (hs : q.shardStates[q.i.toNat]? = some (some src)) {a t : Nat} {rem : List UInt32}
    (hl : L[q.i.toNat]? = some (some (a, t, rem))) {p : Posts} {rem' : List UInt32} (hp : PostsRep src.file p rem') (hsuf : rem' <:+ rem) :
    ∃ L', LInv x n vals (q.put q.i { src with posts := p }) L' ∧ wts L' ≤ wts L := by
  obtain ⟨p1, p2, p3, p4, p5, p6, p7⟩ := h.at_ _ _ _ hs hl
  refine ⟨L.set q.i.toNat (some (a, t, rem')), ⟨h.qn, by simp [QState.put, h.lenS], by simp [h.lenL], ?_, h.i, ?_⟩, ?_⟩
  · intro j s' l' k1 k2
    simp only [QState.put] at k1
    by_cases e : q.i.toNat = j
    · subst e
      rw [List.getElem?_set_self (by rw [h.lenS]; exact h.i)] at k1
      rw [List.getElem?_set_self (by rw [h.lenL]; exact h.i)] at k2
      injection k1 with k1; injection k2 with k2
      subst k1 k2
      exact ⟨p1, p2, p3, p4, p5, hsuf.trans p6, hp⟩
    · rw [List.getElem?_set_ne e] at k1 k2
      exact h.at_ j s' l' k1 k2
  · rcases h.max with hm | hm
    · left
      exact hm.trans (maxLoop_set q.shardStates q.i.toNat src { src with posts := p } hs rfl 0 0 0).symm
    · right
      intro a' t' r' hmem
      rcases List.mem_or_eq_of_mem_set hmem with hmem | hmem
      · exact hm a' t' r' hmem
      · injection hmem with hmem; injection hmem with h1 hmem; injection hmem with h2 h3
        subst h2
        exact hm _ _ _ (List.mem_of_getElem? hl)
  · have w := wts_set L q.i.toNat _ (some (a, t, rem')) hl
    have := hsuf.length_le
    by_cases ht : t ≤ 1
    · rw [wt_small ht, wt_small ht] at w; omega
    · rw [wt_big ht, wt_big ht] at w; omega

include hn in
/-- the shard the query is at is done with -/
theorem LInv.nil {q : QState} {L : List Place} (h : LInv x n vals q L) (hs : q.shardStates[q.i.toNat]? = some none) :
    LInv x n vals { q with nilCount := q.nilCount + 1 } L ∧
    LInv x n vals { q with nilCount := q.nilCount + 1, i := if q.i + 1 = q.n then 0 else q.i + 1 } L := by
  have hexh : Exh L := by
    rcases h.max with hm | hm
    · rcases maxLoop_spec q.shardStates 0 0 0 (by rw [h.lenS]; omega) with ⟨g1, g2⟩ | ⟨j, s, g1, g2, _⟩
      · intro a t rem hmem
        obtain ⟨j, hj⟩ := List.mem_iff_getElem?.mp hmem
        obtain ⟨o, ho⟩ : ∃ o, q.shardStates[j]? = some o := ⟨_, List.getElem?_eq_getElem (by rw [h.lenS, ← h.lenL]; exact (List.getElem?_eq_some_iff.mp hj).1)⟩
        have hp := h.at_ j _ _ ho hj
        cases o with
        | none => exact hp.elim
        | some rs =>
          have := g2 rs (List.mem_of_getElem? ho)
          rw [UInt32.le_iff_toNat_le] at this
          have e := hp.2.2.2.2.1
          simp at this
          omega
      · rw [← hm] at g2
        rw [g2, Nat.zero_add, g1] at hs
        cases hs
    · exact hm
  refine ⟨⟨h.qn, h.lenS, h.lenL, h.at_, h.i, .inr hexh⟩, ⟨h.qn, h.lenS, h.lenL, h.at_, ?_, .inr hexh⟩⟩
  show (if q.i + 1 = q.n then (0 : UInt32) else q.i + 1).toNat < n
  have hi := h.i
  have e : q.n.toNat = n := by rw [h.qn]; simp only [UInt32.toNat_ofNat']; omega
  split
  · simp; omega
  · rename_i hne
    have : (q.i + 1).toNat = q.i.toNat + 1 := by rw [UInt32.toNat_add]; simp; omega
    rw [this]
    have : q.i.toNat + 1 ≠ n := by
      intro hc; apply hne; apply UInt32.toNat_inj.mp; omega
    omega

theorem dropBlot_len (b : Blot) (lim : Bool) : (dropBlot lim b).len = 0 := by
  obtain ⟨bl, ds⟩ := b
  cases lim <;> cases ds <;> rfl

/-- what `Next` does when no file can be read -/
structure NextShut (x : Index) (n : Nat) (vals : Nat → Nat → List UInt32) (L : List Place) (k : Nat) (dst : List Blot) (r : NextOut) : Prop where
  lo : k ≤ r.n
  hi : r.n ≤ dst.length
  len : r.dst.length = dst.length
  old : ∀ i, i < k → r.dst[i]? = dst[i]?
  new : ∀ i, k ≤ i → i < r.n → ∃ b b', dst[i]? = some b ∧ r.dst[i]? = some b' ∧ 2 ≤ b.len ∧ b'.docs = b.docs
  err : r.n = 0 → dst ≠ [] → r.err ≠ none
  rest : ∃ L', LInv x n vals r.state L' ∧ wts L' ≤ wts L

include hsrt hx hn in
theorem nextLoop_shut {φ : ReadFates} (hφ : AllFail φ) (grow : Nat → Nat) {ff : Nat} (hff : 0 < ff) (fuel : Nat) : ∀ (c : Nat) (q : QState) (L : List Place) (k : Nat) (dst : List Blot),
    LInv x n vals q L → k ≤ dst.length → wts L + toGo q + (dst.length - k) < fuel →
    ∃ r, nextLoopF φ grow x ff fuel c q k dst = .ok r ∧ NextShut x n vals L k dst r := by
  induction fuel with
  | zero => intro c q L k dst _ _ hf; omega
  | succ fuel ih =>
    intro c q L k dst h hk hf
    by_cases he : k = dst.length
    · refine ⟨⟨k, none, dst, q⟩, by simp only [nextLoopF, List.getElem?_eq_none (show dst.length ≤ k by omega)], ?_⟩
      refine ⟨Nat.le_refl _, hk, rfl, fun _ _ => rfl, fun i h1 h2 => absurd h2 (by show ¬ i < k; omega), ?_, L, h, Nat.le_refl _⟩
      intro e hne
      exact absurd (List.length_eq_zero_iff.mp (by rw [← he]; exact e)) hne
    obtain ⟨b, hb⟩ : ∃ b, dst[k]? = some b := ⟨_, List.getElem?_eq_getElem (by omega)⟩
    obtain ⟨s, hs⟩ : ∃ s, q.shardStates[q.i.toNat]? = some s := ⟨_, List.getElem?_eq_getElem (by rw [h.lenS]; exact h.i)⟩
    have hlt : k < dst.length := Nat.lt_of_le_of_ne hk he
    cases s with
    | none =>
      obtain ⟨n1, n2⟩ := h.nil hn hs
      obtain ⟨t1, t2⟩ := toGo_step q (q' := { q with nilCount := q.nilCount + 1 }) rfl rfl
      simp only [nextLoopF, hb, hs]
      by_cases hc : q.nilCount + 1 = q.n
      · simp only [hc, if_true]
        refine ⟨_, rfl, ⟨Nat.le_refl _, hk, rfl, fun _ _ => rfl, fun i h1 h2 => absurd h2 (by show ¬ i < k; omega), ?_, L, by rw [hc] at n1; exact n1, Nat.le_refl _⟩⟩
        intro e _
        change k = 0 at e
        subst e
        exact nofun
      · simp only [hc, if_false]
        have t2 := t2 fun e => hc (t1.mpr e)
        have hq : toGo { q with nilCount := q.nilCount + 1, i := if q.i + 1 = q.n then 0 else q.i + 1 } = toGo { q with nilCount := q.nilCount + 1 } := rfl
        exact ih c _ L k dst n2 hk (by rw [hq]; omega)
    | some src =>
      obtain ⟨l, hl⟩ : ∃ l, L[q.i.toNat]? = some l := ⟨_, List.getElem?_eq_getElem (by rw [h.lenL]; exact h.i)⟩
      have hat := h.at_ _ _ _ hs hl
      match l, hat with
      | some (a, t, rem), ⟨p1, p2, p3, p4, p5, p6, p7⟩ =>
        subst p2 p5
        obtain ⟨q1, l1, a1, a2, a3, a4, q2, L2, b1, b2, b3, b4, b5⟩ := LInv.advance2 hsrt hx hn h hs hl
        -- counted as it is
        have keep : ∀ (c' : Nat) (bl : UInt32) (q' : QState) (L' : List Place), fillBlotF φ grow x ff c q b src q.i = .ok (c', ⟨bl, b.docs⟩, q', none) → ¬ b.len ≤ 1 →
            LInv x n vals q' L' → q'.nilCount = q.nilCount → wts L' ≤ wts L → ∃ r, nextLoopF φ grow x ff (fuel + 1) c q k dst = .ok r ∧ NextShut x n vals L k dst r := by
          intro c' bl q' L' hfill h2 hq' hnil hw
          have hg : toGo q' = toGo q := by unfold toGo; rw [hnil, hq'.qn, h.qn]
          obtain ⟨r, r1, r2⟩ := ih c' q' L' (k + 1) (dst.set k ⟨bl, b.docs⟩) hq' (by rw [List.length_set]; exact hlt) (by rw [List.length_set]; omega)
          refine ⟨r, ?_, Nat.le_of_succ_le r2.lo, by have := r2.hi; rwa [List.length_set] at this, by rw [r2.len, List.length_set], ?_, ?_, ?_, ?_⟩
          · have h2' : ¬ Blot.len ⟨bl, b.docs⟩ ≤ 1 := h2
            simp only [nextLoopF, hb, hs, hfill, bind, Except.bind, h2', if_false]; exact r1
          · intro i hi; rw [r2.old i (by omega), List.getElem?_set_ne (by omega)]
          · intro i h1 h3
            by_cases e : i = k
            · subst e
              exact ⟨b, ⟨bl, b.docs⟩, hb, by rw [r2.old i (Nat.lt_succ_self i), List.getElem?_set_self hlt], by omega, rfl⟩
            · obtain ⟨c1, c2, d1, d2⟩ := r2.new i (by omega) h3
              exact ⟨c1, c2, by rwa [List.getElem?_set_ne (by omega)] at d1, d2⟩
          · intro e; have := r2.lo; omega
          · obtain ⟨L'', r3, r4⟩ := r2.rest
            exact ⟨L'', r3, by omega⟩
        -- passed over
        have pass : ∀ (c' : Nat) (bl : UInt32) (q' q'' : QState) (L' : List Place), fillBlotF φ grow x ff c q b src q.i = .ok (c', ⟨bl, b.docs⟩, q', none) → b.len ≤ 1 →
            Query.advance x q' src q'.i = .ok q'' →
            LInv x n vals q'' L' → q''.nilCount = q.nilCount → wts L' < wts L → ∃ r, nextLoopF φ grow x ff (fuel + 1) c q k dst = .ok r ∧ NextShut x n vals L k dst r := by
          intro c' bl q' q'' L' hfill h2 hadv hq' hnil hw
          have hg : toGo q'' = toGo q := by unfold toGo; rw [hnil, hq'.qn, h.qn]
          obtain ⟨r, r1, r2⟩ := ih c' q'' L' k (dst.set k (dropBlot b.docs.isSome ⟨bl, b.docs⟩)) hq' (by rw [List.length_set]; exact hk) (by rw [List.length_set]; omega)
          refine ⟨r, ?_, r2.lo, by have := r2.hi; rwa [List.length_set] at this, by rw [r2.len, List.length_set], ?_, ?_, ?_, ?_⟩
          · have h2' : Blot.len ⟨bl, b.docs⟩ ≤ 1 := h2
            simp only [nextLoopF, hb, hs, hfill, bind, Except.bind, h2', if_true, hadv]; exact r1
          · intro i hi; rw [r2.old i hi, List.getElem?_set_ne (by omega)]
          · intro i h1 h3
            obtain ⟨c1, c2, d1, d2, d3, d4⟩ := r2.new i h1 h3
            by_cases e : k = i
            · subst e
              rw [List.getElem?_set_self hlt] at d1
              injection d1 with d1
              rw [← d1, dropBlot_len] at d3
              omega
            · rw [List.getElem?_set_ne e] at d1
              exact ⟨c1, c2, d1, d2, d3, d4⟩
          · intro e hne; exact r2.err e (by simpa using hne)
          · obtain ⟨L'', r3, r4⟩ := r2.rest
            exact ⟨L'', r3, by omega⟩
        rcases fill_shut hφ grow (x := x) (q := q) (pos := q.i) (ff := ff) (k := c) hff p7 b (UInt32.ofNat src.blot * q.n + q.i) with ⟨c', f1, f2, f3⟩ | ⟨f1, f2⟩ | ⟨c', b', p, rem', e, f1, f2, f3, f4⟩
        · by_cases h2 : b.len ≤ 1
          · exact pass c' _ _ q1 _ f1 h2 (by show advance x (q.put q.i src) src q.i = _; unfold QState.put; rw [advance_set, a1]) a3 a2 a4
          · obtain ⟨L', g1, g2⟩ := h.put hs hl p7 (List.suffix_refl _)
            exact keep c' _ _ L' f1 h2 g1 rfl g2
        · obtain ⟨c', f3⟩ := f2 q1 a1
          by_cases h2 : b.len ≤ 1
          · exact pass c' _ _ q2 L2 f3 h2 b1 b3 b2 b4
          · exact keep c' _ _ _ f3 h2 a3 a2 (by omega)
        · obtain ⟨L', g1, g2⟩ := h.put hs hl f3 f4
          refine ⟨⟨k, some e, dst.set k b', q.put q.i { src with posts := p }⟩, ?_, Nat.le_refl _, hk, by simp, ?_, fun i h1 h2 => absurd h2 (by show ¬ i < k; omega), fun _ _ => nofun, L', g1, g2⟩
          · have hfill : fillBlotF φ grow x ff c q b src q.i = .ok (c', b', q.put q.i { src with posts := p }, some e) := f1
            simp only [nextLoopF, hb, hs, hfill, bind, Except.bind]
          · intro i hi; exact List.getElem?_set_ne (by omega)

end

/-- `Get` when no file can be read -/
theorem getLoop_shut {φ : ReadFates} (hφ : AllFail φ) (grow : Nat → Nat) (x : Index) {fuel : Nat} (hfuel : 0 < fuel) (c : Nat) {rs : ReadState} {rem : List UInt32}
    (h : PostsRep rs.file rs.posts rem) (hfresh : rs.posts.docids = []) (b : Blot) :
    ∃ e, getLoopF φ grow x b.docs.isSome fuel c rs b = .ok (b, e) ∧ (e = none ↔ (b.docs.isSome = true ∧ b.len = b.cap) ∨ rem = []) := by
  obtain ⟨f, rfl⟩ : ∃ f, fuel = f + 1 := ⟨fuel - 1, by omega⟩
  rw [getLoopF]
  by_cases hr : (b.docs.isSome && b.len == b.cap) = true
  · rw [if_pos hr]
    simp only [Bool.and_eq_true, beq_iff_eq] at hr
    exact ⟨none, rfl, by simp [hr.1, hr.2]⟩
  · rw [if_neg hr]
    simp only [Bool.and_eq_true, beq_iff_eq] at hr
    rcases nextF_shut hφ c h with ⟨e1, k', e2⟩ | ⟨e1, k', e, e2, e3⟩ | ⟨_, _, _, _, _, _, _, e2⟩
    · exact ⟨none, by rw [e2], by simp [e1]⟩
    · refine ⟨some e, ?_, by simp [e1]; exact fun h1 h2 => hr ⟨h1, h2⟩⟩
      rw [e2]
      cases e with
      | eof => exact absurd rfl e3
      | _ => rfl
    · exact absurd hfresh e2

end Query
end Dupi
