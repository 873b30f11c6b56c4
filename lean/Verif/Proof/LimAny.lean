import Verif.Proof.NextLim
/-! # `Next` with any slices

Where `Next` has read a list to the end and has less than two documents to show, it advances twice, the second time at the shard `setMax` has chosen in the
meantime: that shard is set to the place after that of the first one.  So shards may also go back. -/

namespace Dupi.Query

/-- where a shard is: its place, the number of documents there, and those not yet read -/
abbrev Place := Option (Nat × Nat × List UInt32)

/-- the read state of a shard and its place -/
def PlaceAt (vals : Nat → List UInt32) : Option ReadState → Place → Prop
  | none, none => True
  | some rs, some (a, t, rem) => a < 65536 ∧ rs.at_ = a ∧ rs.blot < 65536 ∧ t = (vals rs.blot).length ∧ rs.total.toNat = t ∧ rem <:+ vals rs.blot ∧ PostsRep rs.file rs.posts rem
  | _, _ => False

/-- no shard has a blot with two documents left -/
def Exh (L : List Place) : Prop := ∀ a t rem, some (a, t, rem) ∈ L → t ≤ 1

structure LInv (x : Index) (n : Nat) (vals : Nat → Nat → List UInt32) (q : QState) (L : List Place) : Prop where
  qn : q.n = UInt32.ofNat n
  lenS : q.shardStates.length = n
  lenL : L.length = n
  at_ : ∀ (j : Nat) s l, q.shardStates[j]? = some s → L[j]? = some l → PlaceAt (vals j) s l
  i : q.i.toNat < n
  max : q.i = QState.maxLoop q.shardStates 0 0 0 ∨ Exh L

/-- what a shard at this place can still contribute to the number of passes -/
def wt : Place → Nat
  | none => 0
  | some (a, t, rem) => if t ≤ 1 then 1 else 3 ^ (65536 - a) * 2 ^ 32 + rem.length

def wts (L : List Place) : Nat := (L.map wt).sum

theorem wt_big {a t : Nat} {rem : List UInt32} (h : ¬ t ≤ 1) : wt (some (a, t, rem)) = 3 ^ (65536 - a) * 2 ^ 32 + rem.length := by
  show (if t ≤ 1 then 1 else 3 ^ (65536 - a) * 2 ^ 32 + rem.length) = _
  rw [if_neg h]

theorem wt_small {a t : Nat} {rem : List UInt32} (h : t ≤ 1) : wt (some (a, t, rem)) = 1 := by
  show (if t ≤ 1 then 1 else 3 ^ (65536 - a) * 2 ^ 32 + rem.length) = _
  rw [if_pos h]

theorem wts_set (L : List Place) : ∀ (i : Nat) (l v : Place), L[i]? = some l → wts (L.set i v) + wt l = wts L + wt v := by
  induction L with
  | nil => intro i l v h; simp at h
  | cons a L ih =>
    intro i l v h
    cases i with
    | zero => simp at h; subst h; simp [wts]; omega
    | succ i =>
      have := ih i l v (by simpa using h)
      simp only [wts, List.set_cons_succ, List.map_cons, List.sum_cons] at this ⊢
      omega

theorem wts_get {L : List Place} {i : Nat} {l : Place} (h : L[i]? = some l) : wt l ≤ wts L := by
  have := wts_set L i l none h
  have e : wt none = 0 := rfl
  omega

/-- what `advance` puts in place of a shard's place, after a list at `a` with `t` documents -/
def After (a t : Nat) (l : Place) : Prop := l = none ∨ ∃ t' vs, l = some (a + 1, t', vs) ∧ a + 1 < 65536 ∧ 2 ≤ t ∧ vs.length = t' ∧ t' < 2 ^ 32

theorem After.small {a t : Nat} {l : Place} (h : After a t l) (ht : t ≤ 1) : l = none := by
  rcases h with h | ⟨_, _, _, _, h, _⟩
  · exact h
  · omega

theorem After.wt {a t : Nat} {l l' : Place} (h : After a t l) (h' : After a t l') {rem : List UInt32} : wt l + wt l' < Query.wt (some (a, t, rem)) := by
  have key : ∀ l, After a t l → 2 ≤ t → Query.wt l ≤ 3 ^ (65536 - (a + 1)) * 2 ^ 32 + 2 ^ 32 ∧ (Query.wt l ≠ 0 → a + 1 < 65536) := by
    intro l h ht
    rcases h with rfl | ⟨t', vs, rfl, h1, h2, h3, h4⟩
    · exact ⟨Nat.zero_le _, fun h => absurd rfl h⟩
    · refine ⟨?_, fun _ => h1⟩
      have : 0 < 3 ^ (65536 - (a + 1)) := Nat.pow_pos (by omega)
      by_cases e : t' ≤ 1
      · rw [wt_small e]; omega
      · rw [wt_big e]; omega
  by_cases ht : t ≤ 1
  · rw [h.small ht, h'.small ht]
    rw [wt_small ht]; show 0 + 0 < 1; omega
  · obtain ⟨h1, h2⟩ := key l h (by omega)
    obtain ⟨h3, h4⟩ := key l' h' (by omega)
    have e : Query.wt (some (a, t, rem)) = 3 ^ (65536 - a) * 2 ^ 32 + rem.length := wt_big ht
    rw [e]
    have hp : 0 < 3 ^ (65536 - a) := Nat.pow_pos (by omega)
    by_cases ha : a + 1 < 65536
    · obtain ⟨m, hm⟩ : ∃ m, 65536 - (a + 1) = m + 1 := ⟨65536 - (a + 1) - 1, by omega⟩
      have e2 : 65536 - a = m + 1 + 1 := by omega
      rw [hm] at h1 h3
      rw [e2, Nat.pow_succ]
      have hp : 0 < 3 ^ m := Nat.pow_pos (by omega)
      have e3 : 3 ^ (m + 1) = 3 ^ m * 3 := Nat.pow_succ ..
      rw [e3] at h1 h3 ⊢
      omega
    · have z1 : Query.wt l = 0 := Classical.byContradiction fun h => ha (h2 h)
      have z2 : Query.wt l' = 0 := Classical.byContradiction fun h => ha (h4 h)
      omega

section
variable {srt : Sorter} (hsrt : IsSorter srt) {x : Index} {n : Nat} {vals : Nat → Nat → List UInt32} {D : UInt32 → Bytes × UInt32 × UInt32} (hx : Holds srt x n vals D) (hn : n < 2 ^ 32)
include hsrt hx hn

theorem LInv.advance {q : QState} {L : List Place} (h : LInv x n vals q L) {src : ReadState} (ha : src.at_ < 65536) {pos : UInt32} (hp : pos.toNat < n) :
    ∃ q' l, Query.advance x q src pos = .ok q' ∧ LInv x n vals q' (L.set pos.toNat l) ∧ q'.nilCount = q.nilCount ∧ After src.at_ src.total.toNat l := by
  obtain ⟨xs, hxs⟩ : ∃ s, x.shards[pos.toNat]? = some s := ⟨_, List.getElem?_eq_getElem (by rw [hx.len]; exact hp)⟩
  have hrep := hx.sh _ xs hxs
  obtain ⟨o, l, h1, h2, h3⟩ : ∃ o l, nextState xs src = .ok o ∧ PlaceAt (vals pos.toNat) o l ∧ After src.at_ src.total.toNat l := by
    unfold nextState
    by_cases e1 : src.at_ = 65535
    · exact ⟨none, none, by rw [if_pos e1], trivial, .inl rfl⟩
    · by_cases e2 : src.total ≤ 1
      · exact ⟨none, none, by rw [if_neg e1, if_pos e2], trivial, .inl rfl⟩
      · obtain ⟨b, hb, hblt⟩ := perm_get hsrt hrep (a := src.at_ + 1) (by omega)
        obtain ⟨rs, g1, g2, g3, g4, g5⟩ := readStateAt_rep hrep hb hblt
        refine ⟨some rs, some (src.at_ + 1, (vals pos.toNat b).length, vals pos.toNat b), by rw [if_neg e1, if_neg e2, g1]; rfl, ?_, ?_⟩
        · subst g3
          exact ⟨by omega, g4, hblt, rfl, g5, List.suffix_refl _, g2⟩
        · refine .inr ⟨_, _, rfl, by omega, ?_, rfl, ?_⟩
          · rw [UInt32.le_iff_toNat_le] at e2; simp at e2; omega
          · rw [← g5]; exact UInt32.toNat_lt _
  refine ⟨_, l, advance_eq hxs (by rw [h.lenS]; exact hp) h1, ⟨h.qn, by simp [QState.setMax, h.lenS], by simp [h.lenL], ?_, ?_, .inl rfl⟩, rfl, h3⟩
  · intro j s l' k1 k2
    simp only [QState.setMax] at k1
    by_cases e : pos.toNat = j
    · subst e
      rw [List.getElem?_set_self (by rw [h.lenS]; exact hp)] at k1
      rw [List.getElem?_set_self (by rw [h.lenL]; exact hp)] at k2
      injection k1 with k1; injection k2 with k2
      subst k1 k2; exact h2
    · rw [List.getElem?_set_ne e] at k1 k2
      exact h.at_ j s l' k1 k2
  · simp only [QState.setMax]
    rcases maxLoop_spec (q.shardStates.set pos.toNat o) 0 0 0 (by simp [h.lenS]; omega) with ⟨g1, _⟩ | ⟨j, s, g1, g2, _⟩
    · rw [g1]; show (0 : UInt32).toNat < n; simp; omega
    · rw [g2]
      have := (List.getElem?_eq_some_iff.mp g1).1
      simp [h.lenS] at this; omega

omit hsrt hx hn in
theorem Exh.set {L : List Place} (h : Exh L) (i : Nat) : Exh (L.set i none) := by
  intro a t rem hm
  rcases List.mem_or_eq_of_mem_set hm with hm | hm
  · exact h a t rem hm
  · cases hm

/-- two advances -/
theorem LInv.advance2 {q : QState} {L : List Place} (h : LInv x n vals q L) {src : ReadState} {rem : List UInt32} (hs : q.shardStates[q.i.toNat]? = some (some src))
    (hl : L[q.i.toNat]? = some (some (src.at_, src.total.toNat, rem))) : ∃ q1 l1, Query.advance x q src q.i = .ok q1 ∧ q1.nilCount = q.nilCount ∧
      LInv x n vals q1 (L.set q.i.toNat l1) ∧ wts (L.set q.i.toNat l1) < wts L ∧
      ∃ q2 L2, Query.advance x q1 src q1.i = .ok q2 ∧ q2.nilCount = q.nilCount ∧ LInv x n vals q2 L2 ∧ wts L2 < wts L ∧ (Exh L → Exh L2) := by
  have hat : src.at_ < 65536 := (h.at_ _ _ _ hs hl).1
  obtain ⟨q1, l1, a1, a2, a3, a4⟩ := LInv.advance hsrt hx hn h hat h.i
  obtain ⟨q2, l2, b1, b2, b3, b4⟩ := LInv.advance hsrt hx hn a2 hat a2.i
  have w1 := wts_set L q.i.toNat _ l1 hl
  have hw := a4.wt b4 (rem := rem)
  refine ⟨q1, l1, a1, a3, a2, by omega, q2, _, b1, b3.trans a3, b2, ?_, ?_⟩
  · obtain ⟨l, hl1⟩ : ∃ l, (L.set q.i.toNat l1)[q1.i.toNat]? = some l := ⟨_, List.getElem?_eq_getElem (by rw [a2.lenL]; exact a2.i)⟩
    have w2 := wts_set _ q1.i.toNat l l2 hl1
    omega
  · intro he
    have ht := he _ _ _ (List.mem_of_getElem? hl)
    rw [a4.small ht, b4.small ht]
    exact (he.set _).set _

/-- a slice to be filled: nil, or of length 0 and a capacity -/
def Room (b : Blot) (m : Option Nat) : Prop := (b.docs = none ∧ m = none) ∨ ∃ s, b.docs = some ⟨[], s⟩ ∧ m = some s.length

/-- one pass -/
theorem LInv.pass {q : QState} {L : List Place} (h : LInv x n vals q L) {src : ReadState} (hs : q.shardStates[q.i.toNat]? = some (some src)) (grow : Nat → Nat) {ff : Nat} (hff : 2 ^ 32 ≤ ff)
    {b : Blot} {m : Option Nat} (hb : Room b m) :
    ∃ b' q1 ids, fillBlot grow x ff q b src q.i = .ok (b', q1) ∧ b'.blot = UInt32.ofNat (src.blot * n + q.i.toNat) ∧ src.blot < 65536 ∧ ids <:+: vals q.i.toNat src.blot ∧
      b'.vis.map Doc.noDat = (ids.map fun id => Doc.ofMeta (D id)) ∧ (∀ k, m = some k → ids.length ≤ k) ∧ Room (dropBlot b.docs.isSome b') m ∧
      (2 ≤ ids.length → ∃ L1, q1.nilCount = q.nilCount ∧ LInv x n vals q1 L1 ∧ wts L1 < wts L ∧ ¬ Exh L) ∧
      (ids.length ≤ 1 → ∃ q2 L2, Query.advance x q1 src q1.i = .ok q2 ∧ q2.nilCount = q.nilCount ∧ LInv x n vals q2 L2 ∧ wts L2 < wts L ∧ (Exh L → Exh L2)) := by
  obtain ⟨l, hl⟩ : ∃ l, L[q.i.toNat]? = some l := ⟨_, List.getElem?_eq_getElem (by rw [h.lenL]; exact h.i)⟩
  have hat := h.at_ _ _ _ hs hl
  match l, hat with
  | some (a, t, rem), ⟨p1, p2, p3, p4, p5, p6, p7⟩ =>
    subst p2 p5
    have hlen : rem.length < 2 ^ 32 := by
      have := p6.length_le
      have := src.total.toNat_lt
      omega
    have hD : ∀ id ∈ rem, x.docid2Doc id = .ok (D id) := fun id hi => hx.doc _ _ h.i p3 id (p6.subset hi)
    have hbl : UInt32.ofNat src.blot * q.n + q.i = UInt32.ofNat (src.blot * n + q.i.toNat) := by
      apply UInt32.toNat_inj.mp
      rw [h.qn]
      simp [UInt32.toNat_add, UInt32.toNat_mul]
    have hnexh : 2 ≤ rem.length → ¬ Exh L := by
      intro h2 he
      have := he _ _ _ (List.mem_of_getElem? hl)
      have := p6.length_le
      omega
    obtain ⟨q1, l1, a1, a2, a3, a4, q2, L2, b1, b2, b3, b4, b5⟩ := LInv.advance2 hsrt hx hn h hs hl
    rcases hb with ⟨hb, rfl⟩ | ⟨s, hb, rfl⟩
    · obtain ⟨b', k1, k2, k3⟩ := fillLoop_unlim grow (D := D) (q := q) (q' := q1) (pos := q.i) rem ff src { b with blot := UInt32.ofNat src.blot * q.n + q.i } p7 hD (by omega) a1
      refine ⟨b', q1, rem, ?_, by rw [k2]; exact hbl, p3, p6.isInfix, ?_, by simp, ?_, ?_, ?_⟩
      · rw [← k1]; simp only [fillBlot, hb, Option.isSome_none]
      · rw [k3]; simp [Blot.vis, hb, Doc.noDat, Doc.ofMeta]
      · refine .inl ⟨?_, rfl⟩; rw [hb]; exact dropBlot_nil _
      · intro h2; exact ⟨_, a2, a3, a4, hnexh h2⟩
      · intro _; exact ⟨q2, L2, b1, b2, b3, b4, b5⟩
    · by_cases hc : s.length ≤ rem.length
      · obtain ⟨p', g1, g2⟩ := reads_of_rep (rem.take s.length) src (rem.drop s.length) (by rw [List.take_append_drop]; exact p7)
        have hfl := fillLoop_full grow (D := D) (q := q) (pos := q.i) (bl := UInt32.ofNat src.blot * q.n + q.i) (rem.take s.length) ff src { src with posts := p' } [] s g1
          (by simp; omega) (fun id hi => hD id (List.mem_of_mem_take hi)) (by simp; omega)
        have hfill := (show fillBlot grow x ff q b src q.i = _ by simp only [fillBlot, hb, Option.isSome_some]).trans hfl
        refine ⟨_, _, rem.take s.length, hfill, hbl, p3, ?_, ?_, by intro k hk; injection hk with hk; subst hk; simp; omega, ?_, ?_, ?_⟩
        · exact (List.take_prefix _ _).isInfix.trans p6.isInfix
        · simp only [Blot.vis, List.nil_append]; exact zipWith_noDat D _ s (by simp; omega)
        · right
          rw [hb, Option.isSome_some]
          obtain ⟨s', e1, e2⟩ := dropBlot_lim (bl := UInt32.ofNat src.blot * q.n + q.i) (v := [] ++ List.zipWith (fun (d : Doc) id => d.fill (D id)) s (rem.take s.length)) (s := []) (cap := s.length)
            (by simp; omega)
          exact ⟨s', e1, by rw [e2]⟩
        · intro h2
          rw [List.length_take] at h2
          refine ⟨L.set q.i.toNat (some (src.at_, src.total.toNat, rem.drop s.length)), rfl, ⟨h.qn, by simp [h.lenS], by simp [h.lenL], ?_, h.i, ?_⟩, ?_, hnexh (by omega)⟩
          · intro j s' l' k1 k2
            by_cases e : q.i.toNat = j
            · subst e
              rw [List.getElem?_set_self (by rw [h.lenS]; exact h.i)] at k1
              rw [List.getElem?_set_self (by rw [h.lenL]; exact h.i)] at k2
              injection k1 with k1; injection k2 with k2
              subst k1 k2
              exact ⟨p1, rfl, p3, p4, rfl, (List.drop_suffix _ _).trans p6, g2⟩
            · rw [List.getElem?_set_ne e] at k1 k2
              exact h.at_ j s' l' k1 k2
          · left
            have := h.max.resolve_right (hnexh (by omega))
            have hm : ∀ (ss : List (Option ReadState)) (i : Nat) (s1 s2 : ReadState), ss[i]? = some (some s1) → s2.total = s1.total → ∀ k m p,
                QState.maxLoop (ss.set i (some s2)) k m p = QState.maxLoop ss k m p := by
              intro ss
              induction ss with
              | nil => intro i s1 s2 h; simp at h
              | cons o ss ih =>
                intro i s1 s2 h e k m p
                cases i with
                | zero => simp at h; subst h; simp [QState.maxLoop, e]
                | succ i =>
                  have := ih i s1 s2 (by simpa using h) e
                  cases o with
                  | none => simp only [List.set_cons_succ, QState.maxLoop, this]
                  | some o => simp only [List.set_cons_succ, QState.maxLoop, this]
            exact this.trans (hm q.shardStates q.i.toNat src { src with posts := p' } hs rfl 0 0 0).symm
          · have w := wts_set L q.i.toNat _ (some (src.at_, src.total.toNat, rem.drop s.length)) hl
            have : ¬ src.total.toNat ≤ 1 := by have := p6.length_le; omega
            rw [wt_big this, wt_big this, List.length_drop] at w
            omega
        · intro h1
          have hadv : Query.advance x { q with shardStates := q.shardStates.set q.i.toNat (some { src with posts := p' }) } src q.i = .ok q1 := by rw [advance_set, a1]
          refine ⟨q1, _, hadv, a2, a3, a4, ?_⟩
          intro he
          have ht := he _ _ _ (List.mem_of_getElem? hl)
          obtain ⟨q1', l1', c1, c2, _, c4⟩ := LInv.advance hsrt hx hn h p1 h.i
          rw [a1] at c1; injection c1 with c1; subst c1
          -- the place is determined
          have hget : (L.set q.i.toNat l1)[q.i.toNat]? = some l1 := List.getElem?_set_self (by rw [h.lenL]; exact h.i)
          have hget' : (L.set q.i.toNat l1')[q.i.toNat]? = some l1' := List.getElem?_set_self (by rw [h.lenL]; exact h.i)
          obtain ⟨o, ho⟩ : ∃ o, q1.shardStates[q.i.toNat]? = some o := ⟨_, List.getElem?_eq_getElem (by rw [a3.lenS]; exact h.i)⟩
          have e1 := a3.at_ _ _ _ ho hget
          have e2 := c2.at_ _ _ _ ho hget'
          rw [c4.small ht] at e2
          cases o with
          | some o => exact e2.elim
          | none =>
            cases l1 with
            | none => exact he.set _
            | some l1 => exact e1.elim
      · have hfl := fillLoop_part grow (D := D) (q := q) (q' := q1) (pos := q.i) (bl := UInt32.ofNat src.blot * q.n + q.i) rem ff src [] s p7 (by omega) hD (by omega) a1
        have hfill := (show fillBlot grow x ff q b src q.i = _ by simp only [fillBlot, hb, Option.isSome_some]).trans hfl
        refine ⟨_, _, rem, hfill, hbl, p3, p6.isInfix, ?_, by intro k hk; injection hk with hk; omega, ?_, ?_, ?_⟩
        · simp only [Blot.vis, List.nil_append]; exact zipWith_noDat D _ s (by omega)
        · right
          rw [hb, Option.isSome_some]
          obtain ⟨s', e1, e2⟩ := dropBlot_lim (bl := UInt32.ofNat src.blot * q.n + q.i) (v := [] ++ List.zipWith (fun (d : Doc) id => d.fill (D id)) s rem) (s := s.drop rem.length) (cap := s.length)
            (by simp; omega)
          exact ⟨s', e1, by rw [e2]⟩
        · intro h2; exact ⟨_, a2, a3, a4, hnexh h2⟩
        · intro _; exact ⟨q2, L2, b1, b2, b3, b4, b5⟩

/-- a blot with some of its documents, one after the other in the index -/
def Piece (n : Nat) (vals : Nat → Nat → List UInt32) (D : UInt32 → Bytes × UInt32 × UInt32) (m : Option Nat) (bl : Blot) : Prop :=
  ∃ j b ids, j < n ∧ b < 65536 ∧ bl.blot = UInt32.ofNat (b * n + j) ∧ ids <:+: vals j b ∧ 2 ≤ ids.length ∧ (∀ k, m = some k → ids.length ≤ k) ∧
    bl.vis.map Doc.noDat = ids.map fun id => Doc.ofMeta (D id)

/-- what a call does -/
structure NextAny (x : Index) (n : Nat) (vals : Nat → Nat → List UInt32) (D : UInt32 → Bytes × UInt32 × UInt32) (R : Nat → Option Nat) (L : List Place) (k : Nat) (dst : List Blot) (r : NextResult) : Prop where
  lo : k ≤ r.n
  hi : r.n ≤ dst.length
  len : r.dst.length = dst.length
  old : ∀ i, i < k → r.dst[i]? = dst[i]?
  new : ∀ i, k ≤ i → i < r.n → ∃ bl, r.dst[i]? = some bl ∧ Piece n vals D (R i) bl
  eof : r.eof = true ↔ r.n = 0 ∧ dst ≠ []
  exh : Exh L → r.n = k
  rest : ∃ L', LInv x n vals r.state L' ∧ (r.n - k) + wts L' ≤ wts L ∧ (r.n < dst.length → Exh L') ∧ (Exh L → Exh L')

theorem nextLoop_any (grow : Nat → Nat) {ff : Nat} (hff : 2 ^ 32 ≤ ff) (R : Nat → Option Nat) (fuel : Nat) : ∀ (q : QState) (L : List Place) (k : Nat) (dst : List Blot),
    LInv x n vals q L → (∀ i b, k ≤ i → dst[i]? = some b → Room b (R i)) → k ≤ dst.length → wts L + toGo q < fuel →
    ∃ r, nextLoop grow x ff fuel q k dst = .ok r ∧ NextAny x n vals D R L k dst r := by
  induction fuel with
  | zero => intro q L k dst _ _ _ hf; omega
  | succ fuel ih =>
    intro q L k dst h hR hk hf
    by_cases he : k = dst.length
    · refine ⟨⟨k, false, dst, q⟩, by simp only [nextLoop, List.getElem?_eq_none (show dst.length ≤ k by omega)], ?_⟩
      refine ⟨Nat.le_refl _, hk, rfl, fun _ _ => rfl, fun i h1 h2 => absurd h2 (by show ¬ i < k; omega), ?_, fun _ => rfl, L, h, by show k - k + wts L ≤ wts L; omega, fun h => absurd h (by show ¬ k < _; omega), id⟩
      simp only [Bool.false_eq_true, false_iff, not_and, ne_eq, Decidable.not_not]
      intro e; exact List.length_eq_zero_iff.mp (by omega)
    obtain ⟨b, hb⟩ : ∃ b, dst[k]? = some b := ⟨_, List.getElem?_eq_getElem (by omega)⟩
    obtain ⟨s, hs⟩ : ∃ s, q.shardStates[q.i.toNat]? = some s := ⟨_, List.getElem?_eq_getElem (by rw [h.lenS]; exact h.i)⟩
    have hlt : k < dst.length := Nat.lt_of_le_of_ne hk he
    have hne : dst ≠ [] := by rintro rfl; simp at hb
    cases s with
    | none =>
      have hexh : Exh L := by
        rcases h.max with hm | hm
        · rcases maxLoop_spec q.shardStates 0 0 0 (by rw [h.lenS]; omega) with ⟨g1, g2⟩ | ⟨j, s, g1, g2, _⟩
          · intro a t rem hmem
            obtain ⟨j, hj⟩ := List.mem_iff_getElem?.mp hmem
            obtain ⟨o, ho⟩ : ∃ o, q.shardStates[j]? = some o := ⟨_, List.getElem?_eq_getElem (by rw [h.lenS, ← h.lenL]; exact (List.getElem?_eq_some_iff.mp hj).1)⟩
            have hp := h.at_ j _ _ ho hj
            cases o with
            | none => exact hp.elim
            | some rs =>
              have := g2 rs (List.mem_of_getElem? ho)
              rw [UInt32.le_iff_toNat_le] at this
              have e := hp.2.2.2.2.1
              simp at this
              omega
          · rw [← hm] at g2
            rw [g2, Nat.zero_add, g1] at hs
            cases hs
        · exact hm
      obtain ⟨t1, t2⟩ := toGo_step q (q' := { q with nilCount := q.nilCount + 1 }) rfl rfl
      simp only [nextLoop, hb, hs]
      by_cases hc : q.nilCount + 1 = q.n
      · simp only [hc, if_true]
        refine ⟨_, rfl, ⟨Nat.le_refl _, hk, rfl, fun _ _ => rfl, fun i h1 h2 => absurd h2 (by show ¬ i < k; omega), ?_, fun _ => rfl, L, ⟨h.qn, h.lenS, h.lenL, h.at_, h.i, .inr hexh⟩,
          by show k - k + wts L ≤ wts L; omega, fun _ => hexh, id⟩⟩
        simp only [beq_iff_eq]
        exact ⟨fun h => ⟨h, hne⟩, And.left⟩
      · simp only [hc, if_false]
        have t2 := t2 fun e => hc (t1.mpr e)
        have hq : toGo { q with nilCount := q.nilCount + 1, i := if q.i + 1 = q.n then 0 else q.i + 1 } = toGo { q with nilCount := q.nilCount + 1 } := rfl
        refine ih _ L k dst ⟨h.qn, h.lenS, h.lenL, h.at_, ?_, .inr hexh⟩ hR hk (by rw [hq]; omega)
        show (if q.i + 1 = q.n then (0 : UInt32) else q.i + 1).toNat < n
        have hi := h.i
        have e : q.n.toNat = n := by rw [h.qn]; simp only [UInt32.toNat_ofNat']; omega
        split
        · simp; omega
        · rename_i hne
          have : (q.i + 1).toNat = q.i.toNat + 1 := by rw [UInt32.toNat_add]; simp; omega
          rw [this]
          have : q.i.toNat + 1 ≠ n := by
            intro hc; apply hne; apply UInt32.toNat_inj.mp; omega
          omega
    | some src =>
      obtain ⟨b', q1, ids, f1, f2, f3, f4, f5, f6, f7, f8, f9⟩ := LInv.pass hsrt hx hn h hs grow hff (hR k b (Nat.le_refl _) hb)
      have hlen : b'.len = ids.length := by
        have h1 : b'.len = b'.vis.length := by unfold Blot.len Blot.vis; cases b'.docs <;> rfl
        have h2 := congrArg List.length f5
        simp only [List.length_map] at h2
        omega
      by_cases h2 : ids.length ≤ 1
      · obtain ⟨q2, L2, g1, g2, g3, g4, g5⟩ := f9 h2
        have hg : toGo q2 = toGo q := by unfold toGo; rw [g2, g3.qn, h.qn]
        obtain ⟨r, e1, e2⟩ := ih q2 L2 k (dst.set k (dropBlot b.docs.isSome b')) g3 (by
          intro i c hi hc
          by_cases e : k = i
          · subst e
            rw [List.getElem?_set_self (by omega)] at hc
            injection hc with hc
            rw [← hc]; exact f7
          · rw [List.getElem?_set_ne e] at hc
            exact hR i c hi hc) (by simpa using hk) (by omega)
        refine ⟨r, ?_, e2.lo, by simpa using e2.hi, by simpa using e2.len, ?_, e2.new, ?_, fun he => e2.exh (g5 he), ?_⟩
        · simp only [nextLoop, hb, hs, f1, bind, Except.bind, hlen, h2, if_true, g1]; exact e1
        · intro i hi; rw [e2.old i hi, List.getElem?_set_ne (by omega)]
        · rw [e2.eof]; simp only [ne_eq, List.set_eq_nil_iff]
        · obtain ⟨L', r1, r2, r3, r4⟩ := e2.rest
          exact ⟨L', r1, by omega, fun hlt => r3 (by simpa using hlt), fun he => r4 (g5 he)⟩
      · obtain ⟨L1, g2, g3, g4, g5⟩ := f8 (by omega)
        have hg : toGo q1 = toGo q := by unfold toGo; rw [g2, g3.qn, h.qn]
        obtain ⟨r, e1, e2⟩ := ih q1 L1 (k + 1) (dst.set k b') g3 (by
          intro i c hi hc
          rw [List.getElem?_set_ne (by omega)] at hc
          exact hR i c (by omega) hc) (by rw [List.length_set]; exact hlt) (by omega)
        have hlo := e2.lo
        have hle : k ≤ r.n := Nat.le_of_succ_le hlo
        refine ⟨r, ?_, hle, by simpa using e2.hi, by simpa using e2.len, ?_, ?_, ?_, fun he => absurd he g5, ?_⟩
        · simp only [nextLoop, hb, hs, f1, bind, Except.bind, hlen, h2, if_false]; exact e1
        · intro i hi; rw [e2.old i (by omega), List.getElem?_set_ne (by omega)]
        · intro i h1 h3
          by_cases e : i = k
          · subst e
            refine ⟨b', by rw [e2.old i (Nat.lt_succ_self i), List.getElem?_set_self hlt], q.i.toNat, src.blot, ids, h.i, f3, f2, f4, Nat.lt_of_not_le h2, f6, f5⟩
          · exact e2.new i (by omega) h3
        · rw [e2.eof]; simp only [ne_eq, List.set_eq_nil_iff]
        · obtain ⟨L', r1, r2, r3, r4⟩ := e2.rest
          exact ⟨L', r1, by omega, fun hlt => r3 (by simpa using hlt), fun he => absurd he g5⟩

/-- a fresh query -/
theorem LInv.start {q : QState} (hq : x.startQuery = .ok q) (h0 : 0 < n) : ∃ L, LInv x n vals q L := by
  unfold Index.startQuery at hq
  simp only [bind, Except.bind, pure, Except.pure] at hq
  cases hss : Index.initStates x.shards with
  | error e => rw [hss] at hq; cases hq
  | ok ss =>
    rw [hss] at hq
    injection hq with hq
    subst hq
    have hlen : ∀ (xs : List ShardIndex) ss, Index.initStates xs = .ok ss → ss.length = xs.length := by
      intro xs
      induction xs with
      | nil => intro ss h; injection h with h; subst h; rfl
      | cons y xs ih =>
        intro ss h
        simp only [Index.initStates, bind, Except.bind, pure, Except.pure] at h
        cases h1 : y.readStateAt 0 with
        | error e => rw [h1] at h; cases h
        | ok s =>
          rw [h1] at h
          cases h2 : Index.initStates xs with
          | error e => rw [h2] at h; cases h
          | ok ss' => rw [h2] at h; injection h with h; subst h; simp [ih ss' h2]
    have hl := hlen _ _ hss
    have hat : ∀ j, j < n → ∃ rs, ss[j]? = some (some rs) ∧ rs.at_ = 0 ∧ rs.blot < 65536 ∧ rs.total.toNat = (vals j rs.blot).length ∧ PostsRep rs.file rs.posts (vals j rs.blot) := by
      intro j hj
      obtain ⟨s, hs⟩ : ∃ s, ss[j]? = some s := ⟨_, List.getElem?_eq_getElem (by rw [hl, hx.len]; exact hj)⟩
      obtain ⟨xj, rs, h1, h2, h3⟩ := initStates_at x.shards ss hss j s hs
      subst h2
      obtain ⟨b, hb, hlt⟩ := perm_get hsrt (hx.sh j xj h1) (a := 0) (by omega)
      obtain ⟨rs', g1, g2, g3, g4, g5⟩ := readStateAt_rep (hx.sh j xj h1) hb hlt
      rw [h3] at g1; injection g1 with g1; subst g1
      subst g3
      exact ⟨rs, hs, g4, hlt, g5, g2⟩
    refine ⟨(List.range n).map fun j => match ss[j]? with
      | some (some rs) => some (0, (vals j rs.blot).length, vals j rs.blot)
      | _ => none, by show UInt32.ofNat x.shards.length = _; rw [hx.len], by show ss.length = n; rw [hl, hx.len], by simp, ?_, ?_, .inl rfl⟩
    · intro j s l k1 k2
      have k1 : ss[j]? = some s := k1
      have hj : j < n := by have := (List.getElem?_eq_some_iff.mp k1).1; rw [hl, hx.len] at this; exact this
      obtain ⟨rs, g1, g2, g3, g4, g5⟩ := hat j hj
      rw [List.getElem?_map, List.getElem?_range hj, Option.map_some, g1] at k2
      rw [g1] at k1
      injection k1 with k1; injection k2 with k2
      subst k1 k2
      exact ⟨by omega, g2, g3, rfl, g4, List.suffix_refl _, g5⟩
    · simp only [QState.setMax]
      rcases maxLoop_spec ss 0 0 0 (by rw [hl, hx.len]; omega) with ⟨g1, _⟩ | ⟨j, s, g1, g2, _⟩
      · rw [g1]; exact h0
      · rw [g2]
        have := (List.getElem?_eq_some_iff.mp g1).1
        rw [hl, hx.len] at this; omega

end

end Dupi.Query
