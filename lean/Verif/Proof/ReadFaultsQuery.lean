import Verif.Proof.ReadFaults
import Verif.Proof.NextLim
/-! # Reads that fail during a query -/

namespace Dupi

/-- some call fails, and so does the computation, with an error that is not `io.EOF` -/
def Faulty {α : Type} (φ : ReadFates) (r : M α) : Prop := (∃ j, φ j ≠ none) ∧ ∃ e, e ≠ .eof ∧ r = .error (.err e)

theorem readAtF_cases (φ : ReadFates) (k : Nat) (f : Bytes) (off : Int) (n : Nat) :
    (∃ e, φ k = some e ∧ readAtF φ k f off n = .error (.err e)) ∨ readAtF φ k f off n = readAt f off n := by
  unfold readAtF
  cases φ k with
  | none => exact .inr rfl
  | some e => exact .inl ⟨e, rfl, rfl⟩

theorem readVarintAtLoopF_cases (φ : ReadFates) (f : Bytes) (p : Int) (fuel : Nat) : ∀ (k : Nat) (acc : Bytes),
    (∃ j e, φ j = some e ∧ (readVarintAtLoopF φ f p fuel k acc).2 = .error (.err e)) ∨
    (readVarintAtLoopF φ f p fuel k acc).2 = readVarintAtLoop f p fuel acc := by
  induction fuel with
  | zero => intro k acc; exact .inr rfl
  | succ fuel ih =>
    intro k acc
    rw [readVarintAtLoopF, readVarintAtLoop]
    rcases readAtF_cases φ k f (p + acc.length) 1 with ⟨e, h1, h2⟩ | h
    · exact .inl ⟨k, e, h1, by simp only [h2]⟩
    · rw [h]
      cases hr : readAt f (p + acc.length) 1 with
      | error e => exact .inr rfl
      | ok b =>
        simp only [bind, Except.bind, pure, Except.pure]
        split
        · exact .inr rfl
        · exact ih (k + 1) (acc ++ b)

theorem readVarintAtF_cases (φ : ReadFates) (k : Nat) (f : Bytes) (p : Int) :
    (∃ j e, φ j = some e ∧ (readVarintAtF φ k f p).2 = .error (.err e)) ∨ (readVarintAtF φ k f p).2 = readVarintAt f p := by
  unfold readVarintAtF readVarintAt
  rcases readVarintAtLoopF_cases φ f p maxVarintLen64 k [] with ⟨j, e, h1, h2⟩ | h
  · refine .inl ⟨j, e, h1, ?_⟩
    generalize readVarintAtLoopF φ f p maxVarintLen64 k [] = r at *
    obtain ⟨k', r⟩ := r
    simp only at h2
    simp only [h2]
  · refine .inr ?_
    rw [← h]
    generalize readVarintAtLoopF φ f p maxVarintLen64 k [] = r at *
    obtain ⟨k', r⟩ := r
    cases r with
    | error e => rfl
    | ok bs => simp only [bind, Except.bind, pure, Except.pure]

theorem Posts.readNextF_cases (φ : ReadFates) (k : Nat) (p : Posts) (f : Bytes) :
    Faulty φ (p.readNextF φ k f).2 ∨ (p.readNextF φ k f).2 = p.readNext f := by
  unfold Posts.readNextF Posts.readNext
  rcases readVarintAtF_cases φ k f p.nextpos with ⟨j, e, h1, h2⟩ | h
  · refine .inl ⟨⟨j, by simp [h1]⟩, .wrap "1" e, by simp, ?_⟩
    generalize readVarintAtF φ k f p.nextpos = r at *
    obtain ⟨k', r⟩ := r
    simp only at h2
    simp only [h2, Posts.wrapErr]
  · rw [← h]
    generalize readVarintAtF φ k f p.nextpos = r at *
    obtain ⟨k', r⟩ := r
    cases r with
    | error e => exact .inr (by simp only [bind, Except.bind]; cases e <;> rfl)
    | ok vn =>
      obtain ⟨v, n⟩ := vn
      simp only [Posts.wrapErr, bind, Except.bind]
      split
      · exact .inr rfl
      · rcases readAtF_cases φ k' f (p.nextpos + n) v.toNat with ⟨e, g1, g2⟩ | g
        · exact .inl ⟨⟨k', by simp [g1]⟩, .wrap "2" e, by simp, by simp only [g2]⟩
        · rw [g]
          cases hr : readAt f (p.nextpos + n) v.toNat with
          | error e => exact .inr (by simp only []; cases e <;> rfl)
          | ok buf => exact .inr rfl

theorem ReadState.nextF_cases (φ : ReadFates) (k : Nat) (s : ReadState) : Faulty φ (s.nextF φ k).2 ∨ (s.nextF φ k).2 = s.next := by
  unfold ReadState.nextF ReadState.next Posts.nextF Posts.next
  simp only []
  by_cases h1 : s.posts.i = s.posts.docids.length
  · by_cases h2 : s.posts.nextpos = -1
    · simp only [h1, h2, if_true]; exact .inr rfl
    · simp only [h1, h2, if_true, if_false]
      rcases Posts.readNextF_cases φ k s.posts s.file with ⟨hj, e, he, h⟩ | h
      · exact .inl ⟨hj, e, he, by simp only [h, bind, Except.bind]⟩
      · exact .inr (by rw [h]; rfl)
  · simp only [h1, if_false]; exact .inr rfl

theorem Index.docid2DocF_cases (φ : ReadFates) (k : Nat) (x : Index) (did : UInt32) :
    Faulty φ (x.docid2DocF φ k did).2 ∨ (x.docid2DocF φ k did).2 = x.docid2Doc did := by
  unfold Index.docid2DocF Index.docid2Doc Dmd.lookupF
  cases h1 : φ k with
  | some e => exact .inl ⟨⟨k, by simp [h1]⟩, .wrap "docid2Doc" e, by simp, rfl⟩
  | none =>
    cases h2 : φ (k + 1) with
    | some e => exact .inl ⟨⟨k + 1, by simp [h2]⟩, .wrap "docid2Doc" e, by simp, by simp only [fail]⟩
    | none =>
      refine .inr ?_
      simp only []
      cases Dmd.lookup x.dmd did with
      | error e => cases e <;> rfl
      | ok r => rfl

namespace Query

/-- `Get` with failing reads: an error, or what it gives without -/
theorem getLoopF_cases (φ : ReadFates) (grow : Nat → Nat) (x : Index) (lim : Bool) (fuel : Nat) : ∀ (k : Nat) (rs : ReadState) (b r : Blot),
    getLoop grow x lim fuel rs b = .ok r →
    getLoopF φ grow x lim fuel k rs b = .ok (r, none) ∨ ((∃ j, φ j ≠ none) ∧ ∃ b' e, getLoopF φ grow x lim fuel k rs b = .ok (b', some e)) := by
  induction fuel with
  | zero => intro k rs b r h; cases h
  | succ fuel ih =>
    intro k rs b r h
    rw [getLoop] at h
    rw [getLoopF]
    split at h
    · rename_i hc
      injection h with h
      exact .inl (by rw [if_pos hc, h])
    · rename_i hc
      rw [if_neg hc]
      rcases rs.nextF_cases φ k with ⟨hj, e, he, hn⟩ | hn
      · refine .inr ⟨hj, b, e, ?_⟩
        generalize rs.nextF φ k = z at *
        obtain ⟨k', z⟩ := z
        simp only at hn; subst hn
        cases e <;> first | rfl | simp at he
      · generalize rs.nextF φ k = z at *
        obtain ⟨k', z⟩ := z
        simp only at hn; subst hn
        split at h
        · rename_i h1
          injection h with h
          exact .inl (by simp only [h1, h])
        · cases h
        · rename_i docid rs' h1
          simp only [h1]
          cases h2 : b.next grow lim with
          | error f => simp [h2, bind, Except.bind] at h
          | ok b1 =>
            simp only [h2, bind, Except.bind] at h ⊢
            rcases x.docid2DocF_cases φ k' docid with ⟨hj, e, he, hd⟩ | hd
            · refine .inr ⟨hj, b1, .wrap "internal error docid2Doc" e, ?_⟩
              generalize x.docid2DocF φ k' docid = z at *
              obtain ⟨k2, z⟩ := z
              simp only at hd; subst hd; rfl
            · generalize x.docid2DocF φ k' docid = z at *
              obtain ⟨k2, z⟩ := z
              simp only at hd; subst hd
              split at h
              · cases h
              · cases h
              · rename_i h3
                simp only [h3]
                exact ih k2 rs' _ r h

theorem getF_cases (φ : ReadFates) (grow : Nat → Nat) (x : Index) (fuel : Nat) (q : QState) (b r : Blot) (h : get grow x fuel q b = .ok r) :
    getF φ grow x fuel q b = .ok (r, none) ∨ ((∃ j, φ j ≠ none) ∧ ∃ b' e, getF φ grow x fuel q b = .ok (b', some e)) := by
  unfold get at h
  unfold getF
  split at h
  · cases h
  · rename_i hn
    rw [if_neg hn]
    split at h
    · cases h
    · rename_i sh hs
      simp only [hs]
      cases h1 : sh.readStateFor (b.blot / q.n).toUInt16.toNat with
      | error e => simp only [h1, bind, Except.bind] at h; cases h
      | ok rs =>
        simp only [h1, bind, Except.bind] at h ⊢
        exact getLoopF_cases φ grow x _ fuel 0 rs b r h

theorem fillLoopF_cases (φ : ReadFates) (grow : Nat → Nat) (x : Index) (q : QState) (pos : UInt32) (lim : Bool) (fuel : Nat) :
    ∀ (k : Nat) (rs : ReadState) (b r : Blot) (q' : QState), fillLoop grow x q pos lim fuel rs b = .ok (r, q') →
    (∃ k', fillLoopF φ grow x q pos lim fuel k rs b = .ok (k', r, q', none)) ∨
    ((∃ j, φ j ≠ none) ∧ ∃ k' b' q'' e, e ≠ .eof ∧ fillLoopF φ grow x q pos lim fuel k rs b = .ok (k', b', q'', some e)) := by
  induction fuel with
  | zero => intro k rs b r q' h; cases h
  | succ fuel ih =>
    intro k rs b r q' h
    rw [fillLoop] at h
    rw [fillLoopF]
    split at h
    · rename_i hc
      rw [if_pos hc]
      rcases rs.nextF_cases φ k with ⟨hj, e, he, hn⟩ | hn
      · refine .inr ⟨hj, (rs.nextF φ k).1, b, q.put pos rs, e, he, ?_⟩
        generalize rs.nextF φ k = z at *
        obtain ⟨k', z⟩ := z
        simp only at hn; subst hn
        cases e <;> first | rfl | simp at he
      · generalize rs.nextF φ k = z at *
        obtain ⟨k', z⟩ := z
        simp only at hn; subst hn
        split at h
        · rename_i h1
          simp only [h1]
          cases h2 : advance x q rs pos with
          | error f => simp [h2, bind, Except.bind] at h
          | ok q2 =>
            simp only [h2, bind, Except.bind, pure, Except.pure, Except.ok.injEq, Prod.mk.injEq] at h ⊢
            exact .inl ⟨k', rfl, h.1, h.2, trivial⟩
        · cases h
        · rename_i docid rs' h1
          simp only [h1]
          cases h2 : b.next grow lim with
          | error f => simp [h2, bind, Except.bind] at h
          | ok b1 =>
            simp only [h2, bind, Except.bind] at h ⊢
            rcases x.docid2DocF_cases φ k' docid with ⟨hj, e, he, hd⟩ | hd
            · refine .inr ⟨hj, (x.docid2DocF φ k' docid).1, b1, q.put pos rs', e, he, ?_⟩
              generalize x.docid2DocF φ k' docid = z at *
              obtain ⟨k2, z⟩ := z
              simp only at hd; subst hd; rfl
            · generalize x.docid2DocF φ k' docid = z at *
              obtain ⟨k2, z⟩ := z
              simp only at hd; subst hd
              cases h3 : x.docid2Doc docid with
              | error f => simp [h3] at h
              | ok m =>
                simp only [h3] at h ⊢
                exact ih k2 rs' _ r q' h
    · rename_i hc
      rw [if_neg hc]
      injection h with h; injection h with h1 h2
      exact .inl ⟨k, by rw [h1, ← h2]; rfl⟩

/-- `Next` leaves the blots alone that were filled in before, and does not forget them -/
theorem nextLoop_old (grow : Nat → Nat) (x : Index) (ff fuel : Nat) : ∀ (q : QState) (n : Nat) (dst : List Blot) (r : NextResult),
    nextLoop grow x ff fuel q n dst = .ok r → n ≤ r.n ∧ ∀ i, i < n → r.dst[i]? = dst[i]? := by
  induction fuel with
  | zero => intro q n dst r h; cases h
  | succ fuel ih =>
    intro q n dst r h
    rw [nextLoop] at h
    split at h
    · injection h with h; subst h; exact ⟨Nat.le_refl _, fun _ _ => rfl⟩
    · split at h
      · cases h
      · simp only [] at h
        split at h
        · injection h with h; subst h; exact ⟨Nat.le_refl _, fun _ _ => rfl⟩
        · exact ih _ _ _ _ h
      · rename_i b hb _ src hs
        cases h1 : fillBlot grow x ff q b src q.i with
        | error f => simp [h1, bind, Except.bind] at h
        | ok br =>
          obtain ⟨b', q'⟩ := br
          simp only [h1, bind, Except.bind] at h
          split at h
          · cases h2 : advance x q' src q'.i with
            | error f => simp [h2] at h
            | ok q2 =>
              simp only [h2] at h
              obtain ⟨e1, e2⟩ := ih _ _ _ _ h
              exact ⟨e1, fun i hi => by rw [e2 i hi, List.getElem?_set_ne (by omega)]⟩
          · obtain ⟨e1, e2⟩ := ih _ _ _ _ h
            exact ⟨by omega, fun i hi => by rw [e2 i (by omega), List.getElem?_set_ne (by omega)]⟩

/-- the result of `Next` when nothing fails -/
def NextResult.out (r : NextResult) : NextOut := ⟨r.n, if r.eof then some .eof else none, r.dst, r.state⟩

/-- `Next` with failing reads: what it gives without, or an error, and the blots it counts are those it
gives without -/
theorem nextLoopF_cases (φ : ReadFates) (grow : Nat → Nat) (x : Index) (ff fuel : Nat) : ∀ (k : Nat) (q : QState) (n : Nat) (dst : List Blot) (r : NextResult),
    nextLoop grow x ff fuel q n dst = .ok r →
    nextLoopF φ grow x ff fuel k q n dst = .ok r.out ∨
    ((∃ j, φ j ≠ none) ∧ ∃ o e, nextLoopF φ grow x ff fuel k q n dst = .ok o ∧ o.err = some e ∧ e ≠ .eof ∧ n ≤ o.n ∧ o.n ≤ r.n ∧
      ∀ i, i < o.n → o.dst[i]? = r.dst[i]?) := by
  induction fuel with
  | zero => intro k q n dst r h; cases h
  | succ fuel ih =>
    intro k q n dst r h
    have hold := nextLoop_old grow x ff (fuel + 1) q n dst r h
    rw [nextLoop] at h
    rw [nextLoopF]
    split at h
    · rename_i hd
      injection h with h; subst h
      exact .inl (by simp only [hd]; rfl)
    · rename_i b hb
      simp only [hb]
      split at h
      · cases h
      · rename_i hs
        simp only [hs]
        simp only [] at h
        split at h
        · rename_i hc
          injection h with h; subst h
          exact .inl (by rw [if_pos hc]; rfl)
        · rename_i hc
          rw [if_neg hc]
          exact ih _ _ _ _ _ h
      · rename_i src hs
        simp only [hs]
        cases h1 : fillBlot grow x ff q b src q.i with
        | error f => simp [h1, bind, Except.bind] at h
        | ok br =>
          obtain ⟨b', q'⟩ := br
          simp only [h1, bind, Except.bind] at h
          unfold fillBlot at h1
          unfold fillBlotF
          rcases fillLoopF_cases φ grow x q q.i _ ff k src _ b' q' h1 with ⟨k', h2⟩ | ⟨hj, k', b2, q2, e, he, h2⟩
          · simp only [] at h2
            simp only [h2, bind, Except.bind]
            split at h
            · rename_i hl
              rw [if_pos hl]
              cases h3 : advance x q' src q'.i with
              | error f => simp [h3] at h
              | ok q2 =>
                simp only [h3] at h ⊢
                exact ih _ _ _ _ _ h
            · rename_i hl
              rw [if_neg hl]
              rcases ih k' _ _ _ _ h with h4 | ⟨hj, o, e, g1, g2, g3, g4, g5, g6⟩
              · exact .inl h4
              · exact .inr ⟨hj, o, e, g1, g2, g3, by omega, g5, g6⟩
          · simp only [] at h2
            refine .inr ⟨hj, ⟨n, some e, dst.set n b2, q2⟩, e, ?_, rfl, he, Nat.le_refl _, hold.1, ?_⟩
            · simp only [h2, bind, Except.bind]
            · intro i hi
              simp only at hi
              rw [hold.2 i hi, List.getElem?_set_ne (by omega)]

/-! ### Which calls a step makes -/

/-- the step taken from `k` is `r` if the calls `k` to `k' - 1` succeed -/
theorem readVarintAtLoopF_calls (f : Bytes) (p : Int) (fuel : Nat) : ∀ (k : Nat) (acc : Bytes), ∃ k', k ≤ k' ∧
    ∀ φ : ReadFates, (∀ j, k ≤ j → j < k' → φ j = none) → readVarintAtLoopF φ f p fuel k acc = (k', readVarintAtLoop f p fuel acc) := by
  induction fuel with
  | zero => intro k acc; exact ⟨k, Nat.le_refl _, fun _ _ => rfl⟩
  | succ fuel ih =>
    intro k acc
    cases hr : readAt f (p + acc.length) 1 with
    | error e =>
      refine ⟨k + 1, by omega, fun φ hφ => ?_⟩
      rw [readVarintAtLoopF, readVarintAtLoop]
      simp only [readAtF, hφ k (Nat.le_refl _) (by omega), hr, bind, Except.bind]
    | ok b =>
      by_cases hb : b.all (· < 0x80)
      · refine ⟨k + 1, by omega, fun φ hφ => ?_⟩
        rw [readVarintAtLoopF, readVarintAtLoop]
        simp only [readAtF, hφ k (Nat.le_refl _) (by omega), hr, bind, Except.bind, hb, if_true, pure, Except.pure]
      · obtain ⟨k', h1, h2⟩ := ih (k + 1) (acc ++ b)
        refine ⟨k', by omega, fun φ hφ => ?_⟩
        rw [readVarintAtLoopF, readVarintAtLoop]
        simp only [readAtF, hφ k (Nat.le_refl _) (by omega), hr, bind, Except.bind, hb]
        exact h2 φ (fun j h3 h4 => hφ j (by omega) h4)

theorem readNextF_calls (k : Nat) (p : Posts) (f : Bytes) : ∃ k', k ≤ k' ∧
    ∀ φ : ReadFates, (∀ j, k ≤ j → j < k' → φ j = none) → p.readNextF φ k f = (k', p.readNext f) := by
  obtain ⟨k', g1, g2⟩ := readVarintAtLoopF_calls f p.nextpos maxVarintLen64 k []
  have e : ∀ φ : ReadFates, (∀ j, k ≤ j → j < k' → φ j = none) → readVarintAtF φ k f p.nextpos = (k', readVarintAt f p.nextpos) := by
    intro φ hφ
    unfold readVarintAtF readVarintAt
    rw [g2 φ hφ]
    cases readVarintAtLoop f p.nextpos maxVarintLen64 [] with
    | error e => rfl
    | ok bs => rfl
  unfold Posts.readNextF Posts.readNext
  cases hv : readVarintAt f p.nextpos with
  | error e0 =>
    refine ⟨k', g1, fun φ hφ => ?_⟩
    rw [e φ hφ, hv]
    simp only [bind, Except.bind]
    cases e0 <;> rfl
  | ok vn =>
    obtain ⟨v, n⟩ := vn
    by_cases hc : v < 0 ∨ (Posts.bufLen : Int) < v
    · refine ⟨k', g1, fun φ hφ => ?_⟩
      rw [e φ hφ, hv]
      simp only [Posts.wrapErr, bind, Except.bind, hc, if_true]
    · refine ⟨k' + 1, by omega, fun φ hφ => ?_⟩
      rw [e φ (fun j a b => hφ j a (by omega)), hv]
      simp only [Posts.wrapErr, bind, Except.bind, hc, if_false, readAtF, hφ k' g1 (by omega)]
      cases readAt f (p.nextpos + n) v.toNat with
      | error e0 => cases e0 <;> rfl
      | ok buf => rfl

theorem nextF_calls (k : Nat) (s : ReadState) : ∃ k', k ≤ k' ∧
    ∀ φ : ReadFates, (∀ j, k ≤ j → j < k' → φ j = none) → s.nextF φ k = (k', s.next) := by
  unfold ReadState.nextF ReadState.next Posts.nextF Posts.next
  by_cases h1 : s.posts.i = s.posts.docids.length
  · by_cases h2 : s.posts.nextpos = -1
    · exact ⟨k, Nat.le_refl _, fun φ _ => by simp only [h1, h2, if_true]; rfl⟩
    · simp only [h1, h2, if_true, if_false]
      obtain ⟨k', g1, g2⟩ := readNextF_calls k s.posts s.file
      exact ⟨k', g1, fun φ hφ => by rw [g2 φ hφ]; rfl⟩
  · exact ⟨k, Nat.le_refl _, fun φ _ => by simp only [h1, if_false]; rfl⟩

/-! ### The query after a failed read -/

/-- what a blot `b` was made of the documents `pre` and a failing read: they were appended, or instead of the last one a blank one -/
def Partly (D : UInt32 → Bytes × UInt32 × UInt32) (b b' : Blot) (pre : List UInt32) : Prop :=
  b'.blot = b.blot ∧ (b'.vis = b.vis ++ pre.map (fun id => Doc.ofMeta (D id)) ∨
    ∃ pre' id, pre = pre' ++ [id] ∧ b'.vis = b.vis ++ pre'.map (fun id => Doc.ofMeta (D id)) ++ [Doc.zero])

theorem next_blank (grow : Nat → Nat) (b : Blot) : ∃ b1, b.next grow false = .ok b1 ∧ b1.vis = b.vis ++ [Doc.zero] ∧ b1.blot = b.blot := by
  obtain ⟨bl, ds⟩ := b
  rcases ds with _ | ⟨v, s⟩
  · exact ⟨_, rfl, by simp [Blot.vis], rfl⟩
  · cases s with
    | nil => exact ⟨_, rfl, by simp [Blot.vis], rfl⟩
    | cons d s => exact ⟨_, rfl, by simp [Blot.vis], rfl⟩

/-- filling a blot with failing reads: the list was read to its end, or up to the place of the failure -/
theorem fillLoopF_left (φ : ReadFates) (grow : Nat → Nat) {x : Index} {D : UInt32 → Bytes × UInt32 × UInt32} {q : QState} {pos : UInt32} (rem : List UInt32) :
    ∀ (fuel k : Nat) (rs : ReadState) (b : Blot), PostsRep rs.file rs.posts rem → (∀ id ∈ rem, x.docid2Doc id = .ok (D id)) →
    ∀ k' b' q' e, fillLoopF φ grow x q pos false fuel k rs b = .ok (k', b', q', some e) →
    ∃ pre rem' p, rem = pre ++ rem' ∧ PostsRep rs.file p rem' ∧ q' = q.put pos { rs with posts := p } ∧ Partly D b b' pre := by
  induction rem with
  | nil =>
    intro fuel k rs b h _ k' b' q' e hF
    cases fuel with
    | zero => cases hF
    | succ fuel =>
      rw [fillLoopF] at hF
      simp only [Bool.not_false, Bool.true_or, if_true] at hF
      rcases rs.nextF_cases φ k with ⟨_, e0, he0, hn⟩ | hn
      · generalize rs.nextF φ k = z at *
        obtain ⟨k1, z⟩ := z
        simp only at hn; subst hn
        have hh : b = b' ∧ q.put pos rs = q' := by
          cases e0 <;> simp only [ne_eq, not_true_eq_false, reduceCtorEq, not_false_eq_true] at he0 <;> simp only [Except.ok.injEq, Prod.mk.injEq] at hF <;>
            exact ⟨hF.2.1, hF.2.2.1⟩
        refine ⟨[], [], rs.posts, rfl, h, hh.2.symm, by rw [hh.1], .inl (by rw [hh.1]; simp)⟩
      · rw [ReadState.next_eof h] at hn
        generalize rs.nextF φ k = z at *
        obtain ⟨k1, z⟩ := z
        simp only at hn; subst hn
        simp only at hF
        cases ha : advance x q rs pos with
        | error f => simp [ha, bind, Except.bind] at hF
        | ok q1 => simp [ha, bind, Except.bind, pure, Except.pure] at hF
  | cons id rem ih =>
    intro fuel k rs b h hD k' b' q' e hF
    cases fuel with
    | zero => cases hF
    | succ fuel =>
      rw [fillLoopF] at hF
      simp only [Bool.not_false, Bool.true_or, if_true] at hF
      rcases rs.nextF_cases φ k with ⟨_, e0, he0, hn⟩ | hn
      · generalize rs.nextF φ k = z at *
        obtain ⟨k1, z⟩ := z
        simp only at hn; subst hn
        have hh : b = b' ∧ q.put pos rs = q' := by
          cases e0 <;> simp only [ne_eq, not_true_eq_false, reduceCtorEq, not_false_eq_true] at he0 <;> simp only [Except.ok.injEq, Prod.mk.injEq] at hF <;>
            exact ⟨hF.2.1, hF.2.2.1⟩
        refine ⟨[], id :: rem, rs.posts, rfl, h, hh.2.symm, by rw [hh.1], .inl (by rw [hh.1]; simp)⟩
      · obtain ⟨p, h1, h2⟩ := ReadState.next_step h
        rw [h1] at hn
        generalize rs.nextF φ k = z at *
        obtain ⟨k1, z⟩ := z
        simp only at hn; subst hn
        simp only [] at hF
        obtain ⟨b1, hb, hb1, hb2⟩ := next_blank grow b
        simp only [hb, bind, Except.bind] at hF
        rcases x.docid2DocF_cases φ k1 id with ⟨_, e1, _, hz⟩ | hz
        · generalize x.docid2DocF φ k1 id = z at *
          obtain ⟨k2, z⟩ := z
          simp only at hz; subst hz
          simp only [Except.ok.injEq, Prod.mk.injEq] at hF
          refine ⟨[id], rem, p, rfl, h2, hF.2.2.1.symm, by rw [← hF.2.1]; exact hb2, .inr ⟨[], id, rfl, by rw [← hF.2.1]; simpa using hb1⟩⟩
        · generalize x.docid2DocF φ k1 id = z at *
          obtain ⟨k2, z⟩ := z
          simp only at hz; subst hz
          simp only [hD id (by simp)] at hF
          obtain ⟨pre, rem', p', g1, g2, g3, g4, g5⟩ := ih fuel k2 { rs with posts := p } _ h2 (fun i hi => hD i (by simp [hi])) k' b' q' e hF
          obtain ⟨b2, c1, c2, c3⟩ := Blot.next_unlim grow b (D id)
          rw [hb] at c1; injection c1 with c1; subst c1
          rw [c3] at g4
          rw [c2] at g5
          refine ⟨id :: pre, rem', p', by rw [g1]; rfl, g2, g3, g4, ?_⟩
          rcases g5 with g5 | ⟨pre', i, rfl, g5⟩
          · exact .inl (by rw [g5]; simp)
          · exact .inr ⟨id :: pre', i, rfl, by rw [g5]; simp⟩

/-- A state in which reading the first blot was broken off: `rem` of its documents are left to read. -/
structure Broken (x : Index) (n : Nat) (vals : Nat → Nat → List UInt32) (D : UInt32 → Bytes × UInt32 × UInt32) (q : QState) (j b : Nat) (E : List (Nat × Nat))
    (pre rem : List UInt32) : Prop where
  split : vals j b = pre ++ rem
  small : b < 65536
  doc : ∀ id ∈ vals j b, x.docid2Doc id = .ok (D id)
  few : (vals j b).length < 2 ^ 32
  state : ∃ (q0 q1 : QState) (src : ReadState) (p : Posts), q = q0.put q0.i { src with posts := p } ∧ q0.n = UInt32.ofNat n ∧ q0.i.toNat = j ∧ j < q0.shardStates.length ∧
    src.blot = b ∧ PostsRep src.file p rem ∧ advance x q0 src q0.i = .ok q1 ∧ q1.nilCount = q0.nilCount ∧ Delivers x n vals D q1 E

section
variable {srt : Sorter} (hsrt : IsSorter srt)
include hsrt

/-- `Next` with failing reads, in a state that delivers `E`: when it fails, it was at the first blot not counted,
or `E` is delivered -/
theorem nextLoopF_left {x : Index} {n : Nat} {vals : Nat → Nat → List UInt32} {D : UInt32 → Bytes × UInt32 × UInt32} (hx : Holds srt x n vals D)
    (hn : n < 2 ^ 32) (φ : ReadFates) (grow : Nat → Nat) {ff : Nat} (hff : 2 ^ 32 ≤ ff) {q : QState} {E : List (Nat × Nat)} (h : Delivers x n vals D q E) :
    ∀ (k fuel c : Nat) (dst : List Blot), NilFrom k dst → k ≤ dst.length → E.length + n + toGo q < fuel →
    ∀ o e, nextLoopF φ grow x ff fuel c q k dst = .ok o → o.err = some e → e ≠ .eof →
    (∃ i j b rest pre rem, o.n = k + i ∧ E.drop i = (j, b) :: rest ∧ Broken x n vals D o.state j b rest pre rem ∧ o.state.nilCount = q.nilCount ∧
      ∃ bl, o.dst[o.n]? = some bl ∧ Partly D ⟨UInt32.ofNat (b * n + j), none⟩ bl pre) ∨ o.n = k + E.length := by
  induction h with
  | done h =>
    rename_i q0
    intro k fuel c dst hnil hk hf o e hF he hne
    obtain ⟨r, e1, e2⟩ := nextLoop_delivers hsrt hx hn grow hff (.done (D := D) h) k fuel dst hnil hk hf
    have hc := e2.count
    rcases nextLoopF_cases φ grow x ff fuel c q0 k dst r e1 with hF' | ⟨_, o', e', hF', _, _, g1, g2, _⟩
    · rw [hF] at hF'
      injection hF' with hF'; subst hF'
      simp only [NextResult.out] at he
      split at he
      · injection he with he; exact absurd he.symm hne
      · cases he
    · rw [hF] at hF'
      injection hF' with hF'; subst hF'
      simp at hc
      exact .inr (by simp; omega)
  | step hqn hi hs hp hb hD h2 h32 ha hnil' hrest ih =>
    rename_i q0 q1 src E
    intro k fuel c dst hnil hk hf o e hF he hne
    obtain ⟨f, rfl⟩ : ∃ f, fuel = f + 1 := ⟨fuel - 1, by omega⟩
    rw [nextLoopF] at hF
    cases hd : dst[k]? with
    | none => simp only [hd] at hF; injection hF with hF; subst hF; simp at he
    | some bl =>
      simp only [hd, hs] at hF
      have hlt : k < dst.length := (List.getElem?_eq_some_iff.mp hd).1
      have hbn : bl.docs = none := hnil k bl (Nat.le_refl _) hd
      obtain ⟨b', f1, f2, f3⟩ := fillLoop_unlim grow (D := D) (q := q0) (q' := q1) (pos := q0.i) (vals q0.i.toNat src.blot) ff src
        { bl with blot := UInt32.ofNat src.blot * q0.n + q0.i } hp hD (by omega) ha
      unfold fillBlotF at hF
      simp only [hbn, Option.isSome_none] at hF
      rcases fillLoopF_cases φ grow x q0 q0.i _ ff c src _ b' q1 f1 with ⟨k', g⟩ | ⟨_, k', b2, q2, e0, he0, g⟩
      · simp only [hbn] at g
        simp only [g, bind, Except.bind] at hF
        have hlen : ¬ b'.len ≤ 1 := by
          have : b'.len = b'.vis.length := by unfold Blot.len Blot.vis; cases b'.docs <;> rfl
          rw [this, f3]
          simp [Blot.vis, hbn]; omega
        rw [if_neg hlen] at hF
        have hg : toGo q1 = toGo q0 := by unfold toGo; rw [hrest.n, hqn, hnil']
        rcases ih (k + 1) f k' (dst.set k b') (by
          intro i c hi hc
          rw [List.getElem?_set_ne (by omega)] at hc
          exact hnil i c (by omega) hc) (by simp; omega) (by simp at hf; omega) o e hF he hne with ⟨i, j, b, rest, pre, rem, a1, a2, a3, a4, a5⟩ | hr
        · exact .inl ⟨i + 1, j, b, rest, pre, rem, by omega, by simpa using a2, a3, a4.trans hnil', a5⟩
        · exact .inr (by simp; omega)
      · have g' := g
        simp only [hbn] at g
        simp only [g, bind, Except.bind] at hF
        injection hF with hF; subst hF
        obtain ⟨pre, rem, p, a1, a2, a3, a4⟩ := fillLoopF_left φ grow (D := D) _ ff c src _ hp hD _ _ _ _ g'
        refine .inl ⟨0, q0.i.toNat, src.blot, E, pre, rem, by simp, by simp, ⟨a1, hb, hD, h32, q0, q1, src, p, a3, hqn, rfl,
          (List.getElem?_eq_some_iff.mp hs).1, rfl, a2, ha, hnil', hrest⟩, by rw [a3]; rfl, b2, by simp [hlt], ?_⟩
        have e : UInt32.ofNat src.blot * q0.n + q0.i = UInt32.ofNat (src.blot * n + q0.i.toNat) := by
          apply UInt32.toNat_inj.mp
          rw [hqn]
          simp [UInt32.toNat_add, UInt32.toNat_mul]
        unfold Partly at a4 ⊢
        rw [e] at a4
        have hv : ({ bl with blot := UInt32.ofNat (src.blot * n + q0.i.toNat) } : Blot).vis = [] := by simp [Blot.vis, hbn]
        rw [hv] at a4
        exact a4

/-- `Next` without failing reads in such a state: the rest of the blot comes first, then the others as if nothing
had happened -/
theorem nextLoop_broken {x : Index} {n : Nat} {vals : Nat → Nat → List UInt32} {D : UInt32 → Bytes × UInt32 × UInt32} (hx : Holds srt x n vals D)
    (hn : n < 2 ^ 32) (grow : Nat → Nat) {ff : Nat} (hff : 2 ^ 32 ≤ ff) {q : QState} {j b : Nat} {E : List (Nat × Nat)} {pre rem : List UInt32}
    (h : Broken x n vals D q j b E pre rem) (h2 : 2 ≤ rem.length) (fuel : Nat) (dst : List Blot) (hnil : NilFrom 0 dst) (hd : dst ≠ [])
    (hf : E.length + 1 + n + toGo q < fuel) :
    ∃ r bl, nextLoop grow x ff fuel q 0 dst = .ok r ∧ r.n = min (E.length + 1) dst.length ∧ r.eof = false ∧ r.dst.length = dst.length ∧
      r.dst[0]? = some bl ∧ bl.blot = UInt32.ofNat (b * n + j) ∧ bl.vis = rem.map (fun id => Doc.ofMeta (D id)) ∧
      (∀ (i : Nat) j b, i + 1 < dst.length → E[i]? = some (j, b) → ∃ bl, r.dst[i + 1]? = some bl ∧ bl.blot = UInt32.ofNat (b * n + j) ∧
        bl.vis = (vals j b).map fun id => Doc.ofMeta (D id)) ∧ Delivers x n vals D r.state (E.drop (dst.length - 1)) := by
  obtain ⟨q0, q1, src, p, rfl, hqn, rfl, hlt, rfl, hp, ha, hc, hE⟩ := h.state
  obtain ⟨f, rfl⟩ : ∃ f, fuel = f + 1 := ⟨fuel - 1, by omega⟩
  obtain ⟨b0, dst', rfl⟩ := List.exists_cons_of_ne_nil hd
  have hbn : b0.docs = none := hnil 0 b0 (Nat.le_refl _) rfl
  have hl := h.few
  rw [h.split, List.length_append] at hl
  have hadv : advance x (q0.put q0.i { src with posts := p }) { src with posts := p } q0.i = .ok q1 := by
    rw [QState.put, advance_set, ← ha]; exact advance_congr x q0 rfl rfl _
  obtain ⟨b', f1, f2, f3⟩ := fillLoop_unlim grow (D := D) (q := q0.put q0.i { src with posts := p }) (q' := q1) (pos := q0.i) rem ff { src with posts := p }
    { b0 with blot := UInt32.ofNat src.blot * q0.n + q0.i } hp (fun id hi => h.doc id (by rw [h.split]; simp [hi])) (by omega) hadv
  have hlen : ¬ b'.len ≤ 1 := by
    have : b'.len = b'.vis.length := by unfold Blot.len Blot.vis; cases b'.docs <;> rfl
    rw [this, f3]
    simp [Blot.vis, hbn]; omega
  have hg : toGo q1 = toGo (q0.put q0.i { src with posts := p }) := by unfold toGo; rw [hE.n, hc]; simp only [QState.put, hqn]
  obtain ⟨r, e1, e2⟩ := nextLoop_delivers hsrt hx hn grow hff hE 1 f (b' :: dst') (by
    intro i c hi hc
    obtain ⟨i, rfl⟩ : ∃ m, i = m + 1 := ⟨i - 1, by omega⟩
    exact hnil (i + 1) c (by omega) (by simpa using hc)) (by simp) (by omega)
  have hcount := e2.count
  have hcl := e2.len
  simp only [List.length_cons] at hcount hcl
  refine ⟨r, b', ?_, ?_, ?_, ?_, ?_, ?_, ?_, ?_, ?_⟩
  · have hs : (q0.put q0.i { src with posts := p }).shardStates[q0.i.toNat]? = some (some { src with posts := p }) := by
      simp [QState.put, hlt]
    have hi : (q0.put q0.i { src with posts := p }).i = q0.i := rfl
    have hq : (q0.put q0.i { src with posts := p }).n = q0.n := rfl
    rw [nextLoop]
    simp only [List.getElem?_cons_zero, hs, fillBlot, hbn, Option.isSome_none, hi, hq]
    simp only [hbn] at f1
    simp only [f1, bind, Except.bind, hlen, if_false, List.set_cons_zero]
    exact e1
  · simp only [List.length_cons]; omega
  · have := e2.eof
    cases he : r.eof with
    | false => rfl
    | true => have := (this.mp he).1; omega
  · simpa using hcl
  · rw [e2.old 0 (by omega)]; rfl
  · rw [f2]
    apply UInt32.toNat_inj.mp
    rw [hqn]
    simp [UInt32.toNat_add, UInt32.toNat_mul]
  · rw [f3]; simp [Blot.vis, hbn]
  · intro i j b hi hEi
    obtain ⟨bl, a1, a2⟩ := e2.new i j b (by simp at hi ⊢; omega) hEi
    exact ⟨bl, by rw [← a1, Nat.add_comm], a2⟩
  · have := e2.rest
    simpa using this

end

/-! ### A failure at a given place -/

theorem docid2DocF_fine (φ : ReadFates) (k : Nat) (x : Index) (did : UInt32) (h1 : φ k = none) (h2 : φ (k + 1) = none) :
    x.docid2DocF φ k did = (k + 2, x.docid2Doc did) := by
  unfold Index.docid2DocF Index.docid2Doc Dmd.lookupF
  simp only [h1, h2]
  cases Dmd.lookup x.dmd did with
  | error e => cases e <;> rfl
  | ok r => rfl

theorem docid2DocF_seek (φ : ReadFates) (k : Nat) (x : Index) (did : UInt32) {e : Err} (h : φ k = some e) :
    x.docid2DocF φ k did = (k + 1, fail (.wrap "docid2Doc" e)) := by
  unfold Index.docid2DocF Dmd.lookupF
  simp only [h, fail]

/-- the metadata of the document after `pre` cannot be looked up -/
theorem fillLoopF_at (grow : Nat → Nat) {x : Index} {D : UInt32 → Bytes × UInt32 × UInt32} {q : QState} {pos : UInt32} (id : UInt32) (rem : List UInt32) (pre : List UInt32) :
    ∀ (fuel k : Nat) (rs : ReadState) (b : Blot), PostsRep rs.file rs.posts (pre ++ id :: rem) → (∀ id ∈ pre, x.docid2Doc id = .ok (D id)) → pre.length < fuel →
    ∃ k1 b' p, k ≤ k1 ∧ PostsRep rs.file p rem ∧ b'.blot = b.blot ∧ b'.vis = b.vis ++ pre.map (fun id => Doc.ofMeta (D id)) ++ [Doc.zero] ∧
      ∀ (φ : ReadFates) e, (∀ j, j < k1 → φ j = none) → φ k1 = some e →
      fillLoopF φ grow x q pos false fuel k rs b = .ok (k1 + 1, b', q.put pos { rs with posts := p }, some (.wrap "docid2Doc" e)) := by
  induction pre with
  | nil =>
    intro fuel k rs b h hD hf
    obtain ⟨f, rfl⟩ : ∃ f, fuel = f + 1 := ⟨fuel - 1, by simp at hf; omega⟩
    obtain ⟨p, h1, h2⟩ := ReadState.next_step h
    obtain ⟨k1, g1, g2⟩ := nextF_calls k rs
    obtain ⟨b1, c1, c2, c3⟩ := next_blank grow b
    refine ⟨k1, b1, p, g1, h2, c3, by simpa using c2, fun φ e hφ he => ?_⟩
    rw [fillLoopF]
    simp only [Bool.not_false, Bool.true_or, if_true, g2 φ (fun j _ hj => hφ j (by omega)), h1, c1, bind, Except.bind, docid2DocF_seek φ k1 x id he, fail]
  | cons i pre ih =>
    intro fuel k rs b h hD hf
    obtain ⟨f, rfl⟩ : ∃ f, fuel = f + 1 := ⟨fuel - 1, by simp at hf; omega⟩
    obtain ⟨p, h1, h2⟩ := ReadState.next_step h
    obtain ⟨k1, g1, g2⟩ := nextF_calls k rs
    obtain ⟨b1, c1, c2, c3⟩ := Blot.next_unlim grow b (D i)
    obtain ⟨k2, b', p', a1, a2, a3, a4, a5⟩ := ih f (k1 + 2) { rs with posts := p } (b1.setLast (D i)) h2 (fun i hi => hD i (by simp [hi])) (by simp at hf; omega)
    refine ⟨k2, b', p', by omega, a2, by rw [a3, c3], by rw [a4, c2]; simp, fun φ e hφ he => ?_⟩
    rw [fillLoopF]
    simp only [Bool.not_false, Bool.true_or, if_true, g2 φ (fun j _ hj => hφ j (by omega)), h1, c1, bind, Except.bind,
      docid2DocF_fine φ k1 x i (hφ _ (by omega)) (hφ _ (by omega)), hD i (by simp)]
    exact a5 φ e hφ he

theorem getLoopF_at (grow : Nat → Nat) {x : Index} {D : UInt32 → Bytes × UInt32 × UInt32} (id : UInt32) (rem : List UInt32) (pre : List UInt32) :
    ∀ (fuel k : Nat) (rs : ReadState) (b : Blot), PostsRep rs.file rs.posts (pre ++ id :: rem) → (∀ id ∈ pre, x.docid2Doc id = .ok (D id)) → pre.length < fuel →
    ∃ k1 b', k ≤ k1 ∧ b'.blot = b.blot ∧ b'.vis = b.vis ++ pre.map (fun id => Doc.ofMeta (D id)) ++ [Doc.zero] ∧
      ∀ (φ : ReadFates) e, (∀ j, j < k1 → φ j = none) → φ k1 = some e →
      getLoopF φ grow x false fuel k rs b = .ok (b', some (.wrap "internal error docid2Doc" (.wrap "docid2Doc" e))) := by
  induction pre with
  | nil =>
    intro fuel k rs b h hD hf
    obtain ⟨f, rfl⟩ : ∃ f, fuel = f + 1 := ⟨fuel - 1, by simp at hf; omega⟩
    obtain ⟨p, h1, h2⟩ := ReadState.next_step h
    obtain ⟨k1, g1, g2⟩ := nextF_calls k rs
    obtain ⟨b1, c1, c2, c3⟩ := next_blank grow b
    refine ⟨k1, b1, g1, c3, by simpa using c2, fun φ e hφ he => ?_⟩
    rw [getLoopF]
    simp only [Bool.false_and, Bool.false_eq_true, if_false, g2 φ (fun j _ hj => hφ j (by omega)), h1, c1, bind, Except.bind, docid2DocF_seek φ k1 x id he, fail]
  | cons i pre ih =>
    intro fuel k rs b h hD hf
    obtain ⟨f, rfl⟩ : ∃ f, fuel = f + 1 := ⟨fuel - 1, by simp at hf; omega⟩
    obtain ⟨p, h1, h2⟩ := ReadState.next_step h
    obtain ⟨k1, g1, g2⟩ := nextF_calls k rs
    obtain ⟨b1, c1, c2, c3⟩ := Blot.next_unlim grow b (D i)
    obtain ⟨k2, b', a1, a3, a4, a5⟩ := ih f (k1 + 2) { rs with posts := p } (b1.setLast (D i)) h2 (fun i hi => hD i (by simp [hi])) (by simp at hf; omega)
    refine ⟨k2, b', by omega, by rw [a3, c3], by rw [a4, c2]; simp, fun φ e hφ he => ?_⟩
    rw [getLoopF]
    simp only [Bool.false_and, Bool.false_eq_true, if_false, g2 φ (fun j _ hj => hφ j (by omega)), h1, c1, bind, Except.bind,
      docid2DocF_fine φ k1 x i (hφ _ (by omega)) (hφ _ (by omega)), hD i (by simp)]
    exact a5 φ e hφ he

/-- `Next` at a state that delivers a blot of more than `i` documents can fail at document `i` -/
theorem nextLoopF_at (grow : Nat → Nat) {x : Index} {n : Nat} {vals : Nat → Nat → List UInt32} {D : UInt32 → Bytes × UInt32 × UInt32} {ff : Nat} (hff : 2 ^ 32 ≤ ff)
    {q : QState} {j b : Nat} {E : List (Nat × Nat)} (h : Delivers x n vals D q ((j, b) :: E)) (i : Nat) (hi : i < (vals j b).length) (fuel : Nat)
    (b0 : Blot) (hb0 : b0.docs = none) (dst : List Blot) :
    ∃ k1 b' q', b'.vis = ((vals j b).take i).map (fun id => Doc.ofMeta (D id)) ++ [Doc.zero] ∧
      Broken x n vals D q' j b E ((vals j b).take (i + 1)) ((vals j b).drop (i + 1)) ∧ q'.nilCount = q.nilCount ∧
      ∀ (φ : ReadFates) e, (∀ j, j < k1 → φ j = none) → φ k1 = some e →
        nextLoopF φ grow x ff (fuel + 1) 0 q 0 (b0 :: dst) = .ok ⟨0, some (.wrap "docid2Doc" e), b' :: dst, q'⟩ := by
  cases h with
  | step hqn hi' hs hp hb hD h2 h32 ha hnil' hrest =>
    rename_i q1 src
    have hsplit : vals q.i.toNat src.blot = (vals q.i.toNat src.blot).take i ++ (vals q.i.toNat src.blot)[i] :: (vals q.i.toNat src.blot).drop (i + 1) := by
      rw [← List.drop_eq_getElem_cons hi, List.take_append_drop]
    have hp' := hp
    rw [hsplit] at hp'
    obtain ⟨k1, b', p, _, a2, _, a4, a5⟩ := fillLoopF_at grow (x := x) (D := D) (q := q) (pos := q.i) _ _ _ ff 0 src
      { b0 with blot := UInt32.ofNat src.blot * q.n + q.i } hp' (fun id hi => hD id (List.mem_of_mem_take hi)) (by simp; omega)
    refine ⟨k1, b', q.put q.i { src with posts := p }, ?_, ⟨(List.take_append_drop _ _).symm, hb, hD, h32, q, q1, src, p, rfl, hqn, rfl,
      (List.getElem?_eq_some_iff.mp hs).1, rfl, a2, ha, hnil', hrest⟩, rfl, fun φ e hφ he => ?_⟩
    · rw [a4]; simp [Blot.vis, hb0]
    · have := a5 φ e hφ he
      simp only [hb0] at this
      rw [nextLoopF]
      simp only [List.getElem?_cons_zero, hs, fillBlotF, hb0, Option.isSome_none, this, bind, Except.bind, List.set_cons_zero]

end Query
end Dupi
