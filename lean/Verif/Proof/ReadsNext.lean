import Verif.Proof.Reads

/-! How many calls on the files `Next` makes. -/

namespace Dupi
namespace Query

theorem fillLoopF_reads (grow : Nat → Nat) {x : Index} {D : UInt32 → Bytes × UInt32 × UInt32} {q q' : QState} {pos : UInt32} (φ : ReadFates) {bb : Blot} (rem : List UInt32) :
    ∀ (fuel k : Nat) (rs : ReadState) (b : Blot), PostsRep rs.file rs.posts rem → (∀ id ∈ rem, x.docid2Doc id = .ok (D id)) →
    fillLoop grow x q pos false fuel rs b = .ok (bb, q') →
    (∀ j, j < k + (4 * rem.length - 2 * rs.posts.pend) → φ j = none) →
    ∃ k', fillLoopF φ grow x q pos false fuel k rs b = .ok (k', bb, q', none) ∧ k' ≤ k + (4 * rem.length - 2 * rs.posts.pend) := by
  induction rem with
  | nil =>
    intro fuel k rs b h _ hb _
    cases fuel with
    | zero => cases hb
    | succ f =>
      rw [fillLoop] at hb
      simp only [Bool.not_false, Bool.true_or, if_true, ReadState.next_eof h, fail] at hb
      refine ⟨k, ?_, by omega⟩
      rw [fillLoopF]
      simp only [Bool.not_false, Bool.true_or, if_true, ReadState.nextF_eof h, fail]
      cases ha : advance x q rs pos with
      | error e => rw [ha] at hb; cases hb
      | ok q1 =>
        rw [ha] at hb
        simp only [bind, Except.bind, pure, Except.pure] at hb ⊢
        injection hb with hb; injection hb with h1 h2
        rw [h1, h2]
  | cons id rem ih =>
    intro fuel k rs b h hD hb hφ
    cases fuel with
    | zero => cases hb
    | succ f =>
      obtain ⟨p, r, h2, h3, h4, _⟩ := ReadState.next_cost h
      have hpl := h2.pend_le
      have hpl0 := h.pend_le
      simp only [List.length_cons] at hφ hpl0 ⊢
      have hnF := h4 k φ (fun j _ hj => hφ j (by omega))
      have hn : rs.next = .ok (id, { rs with posts := p }) := by
        have := h4 0 (fun _ => none) (fun _ _ _ => rfl)
        rcases rs.nextF_cases (fun _ => none) 0 with ⟨⟨_, hj⟩, _⟩ | g
        · exact absurd rfl hj
        · rw [this] at g; exact g.symm
      obtain ⟨b1, g1, _, _⟩ := Blot.next_unlim grow b (D id)
      rw [fillLoop] at hb
      simp only [Bool.not_false, Bool.true_or, if_true, hn, g1, bind, Except.bind, hD id (by simp)] at hb
      obtain ⟨k', a1, a2⟩ := ih f (k + r + 2) { rs with posts := p } (b1.setLast (D id)) h2 (fun i hi => hD i (by simp [hi])) hb
        (fun j hj => hφ j (by simp only [] at hj; omega))
      refine ⟨k', ?_, by simp only [] at a2; omega⟩
      rw [fillLoopF]
      simp only [Bool.not_false, Bool.true_or, if_true, hnF, g1, bind, Except.bind,
        docid2DocF_fine φ (k + r) x id (hφ _ (by omega)) (hφ _ (by omega)), hD id (by simp), a1]

/-- no read failed, or none was tried that did -/
def NextOut.Fine (o : NextOut) : Prop := o.err = none ∨ o.err = some .eof

section
variable {srt : Sorter} (hsrt : IsSorter srt)
include hsrt

theorem nextLoopF_reads_exh {x : Index} {n : Nat} {vals : Nat → Nat → List UInt32} {D : UInt32 → Bytes × UInt32 × UInt32} (hx : Holds srt x n vals D)
    (hn : n < 2 ^ 32) (φ : ReadFates) (grow : Nat → Nat) {ff : Nat} (hff : 2 ≤ ff) (k : Nat) (fuel : Nat) : ∀ (q : QState) (dst : List Blot) (k0 : Nat),
    QInv x n vals q (List.replicate n []) → NilFrom k dst → k < dst.length → opens q + toGo q ≤ fuel →
    (∀ j, j < k0 + 4 * opens q → φ j = none) →
    ∃ o, nextLoopF φ grow x ff fuel k0 q k dst = .ok o ∧ o.Fine := by
  induction fuel with
  | zero => intro q dst k0 h _ _ hc; have := toGo_pos q; omega
  | succ fuel ih =>
    intro q dst k0 h hnil hk hfu hφ
    obtain ⟨b, hb⟩ : ∃ b, dst[k]? = some b := ⟨_, List.getElem?_eq_getElem hk⟩
    obtain ⟨s, hs⟩ : ∃ s, q.shardStates[q.i.toNat]? = some s := ⟨_, List.getElem?_eq_getElem (by rw [h.lenS]; exact h.i)⟩
    cases s with
    | none =>
      simp only [nextLoopF, hb, hs]
      obtain ⟨t1, t2⟩ := toGo_step q (q' := { q with nilCount := q.nilCount + 1 }) rfl rfl
      by_cases he : q.nilCount + 1 = q.n
      · simp only [he, if_true]
        refine ⟨_, rfl, ?_⟩
        unfold NextOut.Fine
        by_cases hz : (k == 0) = true
        · right; simp only [hz, if_true]
        · left; simp only [hz]; rfl
      · simp only [he, if_false]
        have hne : toGo q ≠ 1 := fun e => he (t1.mpr e)
        have t2 := t2 hne
        have hq : toGo { q with nilCount := q.nilCount + 1, i := if q.i + 1 = q.n then 0 else q.i + 1 } = toGo { q with nilCount := q.nilCount + 1 } := rfl
        have hop : opens { q with nilCount := q.nilCount + 1, i := if q.i + 1 = q.n then 0 else q.i + 1 } = opens q := rfl
        exact ih _ dst k0 (h.next hn) hnil hk (by rw [hop, hq]; omega) (by rw [hop]; exact hφ)
    | some src =>
      have hbn := hnil k b (Nat.le_refl _) hb
      obtain ⟨b', q1, q2, f1, f2, f3, f4, f5, f6⟩ := exh_some hsrt hx hn h hs grow hff hbn
      obtain ⟨xs, hxs⟩ : ∃ s, x.shards[q.i.toNat]? = some s := ⟨_, List.getElem?_eq_getElem (by rw [hx.len]; exact h.i)⟩
      have hr : (List.replicate n ([] : List Nat))[q.i.toNat]? = some [] := by rw [List.getElem?_replicate, if_pos h.i]
      obtain ⟨g1, g2, g3, _, _, g6⟩ := shardAt_some hsrt (hx.sh _ xs hxs) (h.at_ _ xs _ _ hxs hs hr)
      have ht : src.total.toNat ≤ 1 := by
        false_or_by_contra
        rename_i hc
        obtain ⟨rest, o, e, _⟩ := g6 (by omega)
        simp at e
      have f1' : fillLoop grow x q q.i false ff src { b with blot := UInt32.ofNat src.blot * q.n + q.i } = .ok (b', q1) := by
        rw [← f1]; simp only [fillBlot, hbn, Option.isSome_none]
      obtain ⟨k', a1, a2⟩ := fillLoopF_reads grow φ (vals q.i.toNat src.blot) ff k0 src _ g2 (hx.doc _ _ h.i g1) f1'
        (fun j hj => hφ j (by omega))
      have a1' : fillBlotF φ grow x ff k0 q b src q.i = .ok (k', b', q1, none) := by
        rw [← a1]; simp only [fillBlotF, hbn, Option.isSome_none]
      simp only [nextLoopF, hb, hs, a1', bind, Except.bind, f2, if_true, f3, hbn, Option.isSome_none]
      have hg : toGo q2 = toGo q := by unfold toGo; rw [f5, f4.qn, h.qn]
      exact ih q2 (dst.set k (dropBlot false b')) k' f4 (by
        intro i c hi hc
        rw [List.getElem?_set] at hc
        split at hc
        · injection hc with hc
          rw [← hc]; exact dropBlot_nil _
        · exact hnil i c hi hc) (by simpa using hk) (by omega) (fun j hj => hφ j (by omega))

/-- the documents of the buckets `E` -/
def weight (vals : Nat → Nat → List UInt32) (E : List (Nat × Nat)) : Nat := (E.map fun jb => (vals jb.1 jb.2).length).sum

theorem nextLoopF_reads {x : Index} {n : Nat} {vals : Nat → Nat → List UInt32} {D : UInt32 → Bytes × UInt32 × UInt32} (hx : Holds srt x n vals D)
    (hn : n < 2 ^ 32) (φ : ReadFates) (grow : Nat → Nat) {ff : Nat} (hff : 2 ^ 32 ≤ ff) {q : QState} {E : List (Nat × Nat)} (h : Delivers x n vals D q E) :
    ∀ (k0 k fuel : Nat) (dst : List Blot), NilFrom k dst → k ≤ dst.length → E.length + n + toGo q < fuel →
    (∀ j, j < k0 + 4 * weight vals (E.take (dst.length - k)) + (if E.length < dst.length - k then 4 * n else 0) → φ j = none) →
    ∃ o, nextLoopF φ grow x ff fuel k0 q k dst = .ok o ∧ o.Fine := by
  induction h with
  | done h =>
    rename_i q0
    intro k0 k fuel dst hnil hk hf hφ
    by_cases he : k = dst.length
    · obtain ⟨f, rfl⟩ : ∃ f, fuel = f + 1 := ⟨fuel - 1, by omega⟩
      exact ⟨_, by simp only [nextLoopF, List.getElem?_eq_none (show dst.length ≤ k by omega)]; rfl, .inl rfl⟩
    · have ho : opens q0 ≤ n := by
        have := List.countP_le_length (p := Option.isSome) (l := q0.shardStates)
        rw [h.lenS] at this; exact this
      exact nextLoopF_reads_exh hsrt hx hn φ grow (ff := ff) (by omega) k fuel _ dst k0 h hnil (by omega) (by omega)
        (fun j hj => hφ j (by rw [if_pos (by simp; omega)]; omega))
  | step s1 s2 s3 s4 s5 s6 s7 s8 s9 s10 s11 ih =>
    rename_i q q' src E
    intro k0 k fuel dst hnil hk hf hφ
    obtain ⟨f, rfl⟩ : ∃ f, fuel = f + 1 := ⟨fuel - 1, by omega⟩
    by_cases he : k = dst.length
    · exact ⟨_, by simp only [nextLoopF, List.getElem?_eq_none (show dst.length ≤ k by omega)]; rfl, .inl rfl⟩
    · have hk' : k < dst.length := by omega
      obtain ⟨b, hb⟩ : ∃ b, dst[k]? = some b := ⟨_, List.getElem?_eq_getElem hk'⟩
      have hbn := hnil k b (Nat.le_refl _) hb
      obtain ⟨b', f1, f2, f3⟩ := fillLoop_unlim grow (D := D) (q := q) (q' := q') (pos := q.i) (vals q.i.toNat src.blot) ff src
        { b with blot := UInt32.ofNat src.blot * q.n + q.i } s4 s6 (by omega) s9
      obtain ⟨m, hm⟩ : ∃ m, dst.length - k = m + 1 := ⟨dst.length - k - 1, by omega⟩
      have hw : weight vals (((q.i.toNat, src.blot) :: E).take (dst.length - k)) = (vals q.i.toNat src.blot).length + weight vals (E.take m) := by
        rw [hm]; simp [weight]
      rw [hw] at hφ
      obtain ⟨k', a1, a2⟩ := fillLoopF_reads grow φ (vals q.i.toNat src.blot) ff k0 src _ s4 s6 f1 (fun j hj => hφ j (by omega))
      have a1' : fillBlotF φ grow x ff k0 q b src q.i = .ok (k', b', q', none) := by
        rw [← a1]; simp only [fillBlotF, hbn, Option.isSome_none]
      have hlen : ¬ b'.len ≤ 1 := by
        have : b'.len = b'.vis.length := by unfold Blot.len Blot.vis; cases b'.docs <;> rfl
        rw [this, f3]
        simp [Blot.vis, hbn]; omega
      have hqn : q'.n = q.n := by rw [s11.n, s1]
      have hg : toGo q' = toGo q := by unfold toGo; rw [hqn, s10]
      have hd : (dst.set k b').length - (k + 1) = m := by rw [List.length_set]; omega
      obtain ⟨o, e1, e2⟩ := ih k' (k + 1) f (dst.set k b') (by
        intro i c hi hc
        rw [List.getElem?_set_ne (by omega)] at hc
        exact hnil i c (by omega) hc) (by simp; omega) (by simp at hf; omega) (by
          intro j hj
          rw [hd] at hj
          refine hφ j ?_
          rw [hm, List.length_cons]
          by_cases hc : E.length < m
          · rw [if_pos hc] at hj; rw [if_pos (by omega)]; omega
          · rw [if_neg hc] at hj; omega)
      refine ⟨o, ?_, e2⟩
      simp only [nextLoopF, hb, s3, a1', bind, Except.bind, hlen, if_false]; exact e1

end
end Query
end Dupi
