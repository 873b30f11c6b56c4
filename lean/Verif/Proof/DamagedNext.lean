import Verif.Proof.DamagedIndex
import Verif.Proof.LimAny
/-! # `Next` on an index with any posting files -/

namespace Dupi.Query
open Spec

/-- the read state of a shard, wherever it is -/
structure AnyRs (s : ShardIndex) (rs : ReadState) : Prop where
  at_ : rs.at_ < 65536
  file : rs.file = s.file
  i : rs.posts.i ≤ rs.posts.docids.length
  left : rs.posts.docids.length - rs.posts.i ≤ 522
  link : rs.posts.nextpos = -1 ∨ ∃ h ∈ s.heads, ∃ k, Follow s.file k h rs.posts.nextpos

/-- an index that was read from any files -/
structure AnyIndex (x : Index) (n : Nat) : Prop where
  len : x.shards.length = n
  pos : 0 < n
  small : n < 2 ^ 32
  state : ∀ s ∈ x.shards, ∀ a, a < 65536 → ∃ rs, s.readStateAt a = .ok rs ∧ rs.at_ = a ∧ AnyRs s rs
  doc : ∀ id, Tame (x.docid2Doc id)
  calm : ∀ s ∈ x.shards, ∀ h ∈ s.heads, ∀ k p, Follow s.file k h p → ¬ WildAt s.file p

structure AnyQuery (x : Index) (n : Nat) (q : QState) : Prop where
  qn : q.n = UInt32.ofNat n
  len : q.shardStates.length = n
  i : q.i.toNat < n
  at_ : ∀ (j : Nat) (rs : ReadState), q.shardStates[j]? = some (some rs) → ∃ s, x.shards[j]? = some s ∧ AnyRs s rs

/-- no list of the index is endless -/
def NoneEndless (x : Index) : Prop := ∀ s ∈ x.shards, ∀ h ∈ s.heads, ¬ Endless s.file h

theorem follow_short {f : Bytes} {h p : Int} {k : Nat} (h1 : Follow f k h p) (h2 : ¬ Endless f h) : k ≤ f.length := by
  apply Classical.byContradiction
  intro hk
  apply h2
  rw [show k = f.length + 1 + (k - (f.length + 1)) by omega] at h1
  by_cases e : k - (f.length + 1) = 0
  · rw [e] at h1; exact endless_of_follow h1
  · obtain ⟨m, hm⟩ : ∃ m, k - (f.length + 1) = m + 1 := ⟨k - (f.length + 1) - 1, by omega⟩
    rw [hm] at h1
    obtain ⟨r, h3, _⟩ := h1.split
    exact endless_of_follow h3

/-- reading one more -/
theorem AnyRs.next {x : Index} {n : Nat} (hx : AnyIndex x n) {s : ShardIndex} (hs : s ∈ x.shards) {rs : ReadState} (h : AnyRs s rs) :
    Errs rs.next ∨ ∃ d rs', rs.next = .ok (d, rs') ∧ AnyRs s rs' ∧ rs'.at_ = rs.at_ ∧ rs'.total = rs.total ∧
      ((rs'.posts.docids.length - rs'.posts.i < rs.posts.docids.length - rs.posts.i ∧ rs'.posts.nextpos = rs.posts.nextpos) ∨
        rs.posts.nextpos ≠ -1 ∧ (∃ n v, ChunkAt s.file rs.posts.nextpos n v rs'.posts.nextpos) ∧ rs'.posts.docids.length - rs'.posts.i + 1 ≤ 522) := by
  unfold ReadState.next
  simp only [bind, Except.bind]
  rw [h.file]
  rcases postsNext_any rs.posts s.file h.i with ⟨e, he⟩ | ⟨h1, h2, h3, _⟩ | ⟨d, p', h1, h2, h3⟩
  · rw [he]; exact .inl ⟨_, rfl⟩
  · rcases h.link with hl | ⟨hd, hd1, k, hl⟩
    · exact absurd hl h2
    · exact absurd h3 (hx.calm s hs hd hd1 _ _ hl)
  · rw [h1]
    refine .inr ⟨d, _, rfl, ⟨h.at_, rfl, h2, ?_, ?_⟩, rfl, rfl, ?_⟩
    · rcases h3 with ⟨g1, rfl⟩ | ⟨_, _, _, g4⟩
      · have := h.left
        show rs.posts.docids.length - (rs.posts.i + 1) ≤ 522; omega
      · show p'.docids.length - p'.i ≤ 522; omega
    · rcases h3 with ⟨g1, rfl⟩ | ⟨_, g2, ⟨m, v, g3⟩, _⟩
      · exact h.link
      · by_cases hn : p'.nextpos = -1
        · exact .inl hn
        · rcases h.link with hl | ⟨hd, hd1, k, hl⟩
          · exact absurd hl g2
          · exact .inr ⟨hd, hd1, k + 1, hl.add (g3.more hn)⟩
    · rcases h3 with ⟨g1, rfl⟩ | ⟨_, g2, g3, g4⟩
      · left
        refine ⟨?_, rfl⟩
        show rs.posts.docids.length - (rs.posts.i + 1) < _; omega
      · exact .inr ⟨g2, g3, g4⟩

/-- the next place of a shard -/
theorem AnyQuery.advance {x : Index} {n : Nat} (hx : AnyIndex x n) {q : QState} (h : AnyQuery x n q) {src : ReadState} (ha : src.at_ < 65536) {pos : UInt32} (hp : pos.toNat < n) :
    ∃ q' o, Query.advance x q src pos = .ok q' ∧ AnyQuery x n q' ∧ q'.nilCount = q.nilCount ∧ q'.shardStates = q.shardStates.set pos.toNat o ∧
      (o = none ∨ ∃ rs : ReadState, o = some rs ∧ rs.at_ = src.at_ + 1 ∧ src.at_ + 1 < 65536) := by
  obtain ⟨xs, hxs⟩ : ∃ s, x.shards[pos.toNat]? = some s := ⟨_, List.getElem?_eq_getElem (by rw [hx.len]; exact hp)⟩
  obtain ⟨o, h1, h2, h3⟩ : ∃ o, nextState xs src = .ok o ∧ (∀ rs, o = some rs → AnyRs xs rs) ∧
      (o = none ∨ ∃ rs : ReadState, o = some rs ∧ rs.at_ = src.at_ + 1 ∧ src.at_ + 1 < 65536) := by
    unfold nextState
    by_cases e1 : src.at_ = 65535
    · exact ⟨none, by rw [if_pos e1], (by intro _ h; cases h), .inl rfl⟩
    · by_cases e2 : src.total ≤ 1
      · exact ⟨none, by rw [if_neg e1, if_pos e2], (by intro _ h; cases h), .inl rfl⟩
      · obtain ⟨rs, g1, g2, g3⟩ := hx.state xs (List.mem_of_getElem? hxs) (src.at_ + 1) (by omega)
        exact ⟨some rs, by rw [if_neg e1, if_neg e2, g1]; rfl, (by intro _ h; injection h with h; subst h; exact g3), .inr ⟨rs, rfl, g2, by omega⟩⟩
  refine ⟨_, o, advance_eq hxs (by rw [h.len]; exact hp) h1, ⟨h.qn, by simp [QState.setMax, h.len], ?_, ?_⟩, rfl, rfl, h3⟩
  · have hsm := hx.small
    have hps := hx.pos
    simp only [QState.setMax]
    rcases maxLoop_spec (q.shardStates.set pos.toNat o) 0 0 0 (by simp [h.len]; omega) with ⟨g1, _⟩ | ⟨j, s, g1, g2, _⟩
    · rw [g1]; exact hps
    · rw [g2]
      have := (List.getElem?_eq_some_iff.mp g1).1
      simp [h.len] at this; omega
  · intro j rs k1
    simp only [QState.setMax] at k1
    by_cases e : pos.toNat = j
    · subst e
      rw [List.getElem?_set_self (by rw [h.len]; exact hp)] at k1
      injection k1 with k1
      exact ⟨xs, hxs, h2 rs k1⟩
    · rw [List.getElem?_set_ne e] at k1
      exact h.at_ j rs k1

/-- `advance` looks only at the place and the number of documents -/
theorem advance_same (x : Index) (q : QState) {src src' : ReadState} (h1 : src'.at_ = src.at_) (h2 : src'.total = src.total) (pos : UInt32) :
    Query.advance x q src' pos = Query.advance x q src pos := by
  unfold Query.advance; rw [h1, h2]

/-- reading a list into a blot -/
theorem fillLoop_any {x : Index} {n : Nat} (hx : AnyIndex x n) (grow : Nat → Nat) {q : QState} (hq : AnyQuery x n q) {pos : UInt32} (hp : pos.toNat < n) (lim : Bool)
    {s : ShardIndex} (hs : x.shards[pos.toNat]? = some s) (fuel : Nat) : ∀ (rs : ReadState) (b : Blot), AnyRs s rs → (lim = true → b.docs.isSome = true) →
    ((lim = true ∧ b.cap - b.len < fuel) ∨
      (NoneEndless x ∧ ∃ hd k, hd ∈ s.heads ∧ (rs.posts.nextpos = -1 ∨ Follow s.file k hd rs.posts.nextpos) ∧
        (rs.posts.docids.length - rs.posts.i) + (if rs.posts.nextpos = -1 then 0 else 522 * (s.file.length + 1 - k)) < fuel)) →
    Errs (fillLoop grow x q pos lim fuel rs b) ∨
    ∃ b' q', fillLoop grow x q pos lim fuel rs b = .ok (b', q') ∧ (lim = true → b'.docs.isSome = true ∧ b'.cap = b.cap) ∧ AnyQuery x n q' ∧
      (Query.advance x q rs pos = .ok q' ∨ ∃ rs', q' = { q with shardStates := q.shardStates.set pos.toNat (some rs') } ∧ rs'.at_ = rs.at_) := by
  have hsm := List.mem_of_getElem? hs
  induction fuel with
  | zero =>
    intro rs b _ _ h
    rcases h with ⟨_, h⟩ | ⟨_, _, _, _, _, h⟩ <;> exact absurd h (Nat.not_lt_zero _)
  | succ fuel ih =>
    intro rs b h hl hm
    rw [fillLoop]
    by_cases hfull : (!lim || decide (b.len < b.cap)) = true
    · rw [if_pos hfull]
      rcases h.next hx hsm with ⟨e, he⟩ | ⟨d, rs', h1, h2, h3, h3', h4⟩
      · rw [he]
        by_cases ee : e = .eof
        · subst ee
          obtain ⟨q', o, g1, g2, _⟩ := hq.advance hx h.at_ hp
          simp only [bind, Except.bind, g1, pure, Except.pure]
          exact .inr ⟨b, q', rfl, fun hl' => ⟨hl hl', rfl⟩, g2, .inl rfl⟩
        · left
          cases e <;> first | exact absurd rfl ee | exact ⟨_, rfl⟩
      · rw [h1]
        have hb : ∃ b', b.next grow lim = .ok b' ∧ b'.docs.isSome = true ∧ (lim = true → b'.cap = b.cap ∧ b'.len = b.len + 1 ∧ b.len < b.cap) := by
          obtain ⟨bl, ds⟩ := b
          cases lim with
          | false =>
            rcases ds with _ | ⟨v, _ | ⟨s, ss⟩⟩
            · exact ⟨_, rfl, rfl, by intro h; cases h⟩
            · exact ⟨_, rfl, rfl, by intro h; cases h⟩
            · exact ⟨_, rfl, rfl, by intro h; cases h⟩
          | true =>
            rcases ds with _ | ⟨v, _ | ⟨s, ss⟩⟩
            · exact absurd (hl rfl) (by simp)
            · exact absurd hfull (by simp [Blot.len, Blot.cap])
            · refine ⟨_, rfl, rfl, fun _ => ?_⟩
              refine ⟨?_, ?_, ?_⟩
              · show (v ++ [s]).length + ss.length = v.length + (ss.length + 1)
                rw [List.length_append, List.length_singleton]; omega
              · show (v ++ [s]).length = v.length + 1
                rw [List.length_append, List.length_singleton]
              · show v.length < v.length + (ss.length + 1)
                omega
        obtain ⟨b', hb1, hb2, hb3⟩ := hb
        simp only [bind, Except.bind, hb1]
        rcases hx.doc d with ⟨r, hr⟩ | ⟨e, he⟩
        · rw [hr]
          simp only []
          obtain ⟨s1, s2, s3⟩ := setLast_facts b' r
          have key : ((lim = true ∧ (b'.setLast r).cap - (b'.setLast r).len < fuel) ∨
              (NoneEndless x ∧ ∃ hd k, hd ∈ s.heads ∧ (rs'.posts.nextpos = -1 ∨ Follow s.file k hd rs'.posts.nextpos) ∧
                (rs'.posts.docids.length - rs'.posts.i) + (if rs'.posts.nextpos = -1 then 0 else 522 * (s.file.length + 1 - k)) < fuel)) := by
            rcases hm with ⟨m1, m2⟩ | ⟨m1, hd, k, m2, m3, m4⟩
            · left
              obtain ⟨c1, c2, c3⟩ := hb3 m1
              refine ⟨m1, ?_⟩
              rw [s2, s3, c1, c2]; omega
            · right
              refine ⟨m1, hd, ?_⟩
              rcases h4 with ⟨g1, g2⟩ | ⟨g1, ⟨m, v, g2⟩, g3⟩
              · refine ⟨k, m2, by rw [g2]; exact m3, ?_⟩
                rw [g2]; omega
              · rcases m3 with m3 | m3
                · exact absurd m3 g1
                · have hk := follow_short m3 (m1 s hsm hd m2)
                  rw [if_neg g1] at m4
                  by_cases hn : rs'.posts.nextpos = -1
                  · refine ⟨k, m2, .inl hn, ?_⟩
                    rw [if_pos hn]; omega
                  · refine ⟨k + 1, m2, .inr (m3.add (g2.more hn)), ?_⟩
                    rw [if_neg hn]; omega
          rcases ih rs' (b'.setLast r) h2 (fun _ => by rw [s1]; exact hb2) key with g | ⟨b2, q2, g1, g2, g3, g4⟩
          · exact .inl g
          · refine .inr ⟨b2, q2, g1, fun hl' => ?_, g3, ?_⟩
            · obtain ⟨k1, k2⟩ := g2 hl'
              exact ⟨k1, k2.trans (s2.trans (hb3 hl').1)⟩
            · rcases g4 with g4 | ⟨rs2, g4, g5⟩
              · exact .inl ((advance_same x q h3 h3' pos).symm.trans g4)
              · exact .inr ⟨rs2, g4, g5.trans h3⟩
        · rw [he]; exact .inl ⟨_, rfl⟩
    · rw [if_neg hfull]
      have hlim : lim = true := by cases lim <;> simp_all
      refine .inr ⟨b, _, rfl, fun hl' => ⟨hl hl', rfl⟩, ⟨hq.qn, by simp [hq.len], hq.i, ?_⟩, .inr ⟨rs, rfl, rfl⟩⟩
      intro j rs' k1
      simp only at k1
      by_cases e : pos.toNat = j
      · subst e
        rw [List.getElem?_set_self (by rw [hq.len]; exact hp)] at k1
        injection k1 with k1
        injection k1 with k1
        subst k1
        exact ⟨s, hs, h⟩
      · rw [List.getElem?_set_ne e] at k1
        exact hq.at_ j rs' k1

/-! ## The number of passes -/

/-- what a shard can still contribute to it -/
def sw : Option ReadState → Nat
  | none => 0
  | some rs => 3 ^ (65536 - rs.at_)

def sws (l : List (Option ReadState)) : Nat := (l.map sw).sum

theorem sws_set (L : List (Option ReadState)) : ∀ (i : Nat) (l v : Option ReadState), L[i]? = some l → sws (L.set i v) + sw l = sws L + sw v := by
  induction L with
  | nil => intro i l v h; simp at h
  | cons a L ih =>
    intro i l v h
    cases i with
    | zero => simp at h; subst h; simp [sws]; omega
    | succ i =>
      have := ih i l v (by simpa using h)
      simp only [sws, List.set_cons_succ, List.map_cons, List.sum_cons] at this ⊢
      omega

theorem sw_two {rs : ReadState} {o o' : Option ReadState} (h : rs.at_ < 65536)
    (h1 : o = none ∨ ∃ r : ReadState, o = some r ∧ r.at_ = rs.at_ + 1 ∧ rs.at_ + 1 < 65536)
    (h2 : o' = none ∨ ∃ r : ReadState, o' = some r ∧ r.at_ = rs.at_ + 1 ∧ rs.at_ + 1 < 65536) : sw o + sw o' < sw (some rs) := by
  obtain ⟨m, hm⟩ : ∃ m, 65536 - rs.at_ = m + 1 := ⟨65536 - rs.at_ - 1, by omega⟩
  have key : ∀ o : Option ReadState, (o = none ∨ ∃ r : ReadState, o = some r ∧ r.at_ = rs.at_ + 1 ∧ rs.at_ + 1 < 65536) → sw o ≤ 3 ^ m := by
    intro o ho
    rcases ho with rfl | ⟨r, rfl, e, _⟩
    · exact Nat.zero_le _
    · show 3 ^ (65536 - r.at_) ≤ _
      rw [e, show 65536 - (rs.at_ + 1) = m by omega]
      exact Nat.le_refl _
  have k1 := key o h1
  have k2 := key o' h2
  have e : sw (some rs) = 3 ^ m * 3 := by
    show 3 ^ (65536 - rs.at_) = _
    rw [hm, Nat.pow_succ]
  have hp : 0 < 3 ^ m := Nat.pow_pos (by omega)
  omega

/-- how the slice of a blot limits reading -/
def Suits (x : Index) (ff : Nat) (b : Blot) : Prop := (b.docs.isSome = true ∧ b.cap < ff) ∨ (b.docs = none ∧ NoneEndless x ∧ ∀ s ∈ x.shards, 522 * (s.file.length + 2) < ff)

theorem dropBlot_suits {x : Index} {ff : Nat} {b b' : Blot} (h : Suits x ff b) (h' : b.docs.isSome = true → b'.docs.isSome = true ∧ b'.cap = b.cap) :
    Suits x ff (dropBlot b.docs.isSome b') := by
  rcases h with ⟨h1, h2⟩ | ⟨h1, h2, h3⟩
  · obtain ⟨k1, k2⟩ := h' h1
    obtain ⟨bl, ds⟩ := b'
    rw [h1]
    cases ds with
    | none => cases k1
    | some s =>
      refine .inl ⟨rfl, ?_⟩
      have k2 : s.vis.length + s.spare.length = b.cap := k2
      show ([] : List Doc).length + (s.vis ++ s.spare).length < ff
      rw [List.length_append, List.length_nil]
      omega
  · rw [h1]
    refine .inr ⟨?_, h2, h3⟩
    show (match false, b'.docs with
      | true, some s => ({ b' with docs := some ⟨[], s.vis ++ s.spare⟩ } : Blot)
      | _, _ => { b' with docs := none }).docs = none
    rfl

theorem nextLoop_tame {x : Index} {n : Nat} (hx : AnyIndex x n) (grow : Nat → Nat) {ff : Nat} (fuel : Nat) : ∀ (q : QState) (k : Nat) (dst : List Blot),
    AnyQuery x n q → (∀ b ∈ dst.drop k, Suits x ff b) → sws q.shardStates + toGo q + (dst.length - k) < fuel →
    Errs (nextLoop grow x ff fuel q k dst) ∨ ∃ r, nextLoop grow x ff fuel q k dst = .ok r ∧ AnyQuery x n r.state ∧ sws r.state.shardStates ≤ sws q.shardStates := by
  induction fuel with
  | zero => intro q k dst _ _ hf; omega
  | succ fuel ih =>
    intro q k dst h hR hf
    cases hb : dst[k]? with
    | none =>
      right
      refine ⟨⟨k, false, dst, q⟩, by simp only [nextLoop, hb], h, Nat.le_refl _⟩
    | some b =>
    have hkl : k < dst.length := (List.getElem?_eq_some_iff.mp hb).1
    obtain ⟨s, hs⟩ : ∃ s, q.shardStates[q.i.toNat]? = some s := ⟨_, List.getElem?_eq_getElem (by rw [h.len]; exact h.i)⟩
    have hdrop : dst.drop k = b :: dst.drop (k + 1) := by
      rw [List.drop_eq_getElem_cons hkl]
      rw [(List.getElem?_eq_some_iff.mp hb).2]
    cases s with
    | none =>
      obtain ⟨t1, t2⟩ := toGo_step q (q' := { q with nilCount := q.nilCount + 1 }) rfl rfl
      simp only [nextLoop, hb, hs]
      by_cases hc : q.nilCount + 1 = q.n
      · simp only [hc, if_true]
        exact .inr ⟨_, rfl, ⟨h.qn, h.len, h.i, h.at_⟩, Nat.le_refl _⟩
      · simp only [hc, if_false]
        have t2 := t2 fun e => hc (t1.mpr e)
        have hq : toGo { q with nilCount := q.nilCount + 1, i := if q.i + 1 = q.n then 0 else q.i + 1 } = toGo { q with nilCount := q.nilCount + 1 } := rfl
        refine ih _ k dst ⟨h.qn, h.len, ?_, h.at_⟩ hR (by rw [hq]; show sws q.shardStates + _ + _ < _; omega)
        show (if q.i + 1 = q.n then (0 : UInt32) else q.i + 1).toNat < n
        have hi := h.i
        have hsm := hx.small
        have hps := hx.pos
        have e : q.n.toNat = n := by rw [h.qn]; simp only [UInt32.toNat_ofNat']; omega
        split
        · simp; omega
        · rename_i hne
          have : (q.i + 1).toNat = q.i.toNat + 1 := by rw [UInt32.toNat_add]; simp; omega
          rw [this]
          have : q.i.toNat + 1 ≠ n := by
            intro hc; apply hne; apply UInt32.toNat_inj.mp; omega
          omega
    | some src =>
      obtain ⟨xs, hxs, hrs⟩ := h.at_ _ _ hs
      have hmem := List.mem_of_getElem? hxs
      have hsuit : Suits x ff b := hR b (by rw [hdrop]; simp)
      have hcond : (b.docs.isSome = true ∧ ({ b with blot := UInt32.ofNat src.blot * q.n + q.i } : Blot).cap - ({ b with blot := UInt32.ofNat src.blot * q.n + q.i } : Blot).len < ff) ∨
          (NoneEndless x ∧ ∃ hd k, hd ∈ xs.heads ∧ (src.posts.nextpos = -1 ∨ Follow xs.file k hd src.posts.nextpos) ∧
            (src.posts.docids.length - src.posts.i) + (if src.posts.nextpos = -1 then 0 else 522 * (xs.file.length + 1 - k)) < ff) := by
        rcases hsuit with ⟨g1, g2⟩ | ⟨g1, g2, g3⟩
        · left
          refine ⟨g1, ?_⟩
          have : ({ b with blot := UInt32.ofNat src.blot * q.n + q.i } : Blot).cap = b.cap := rfl
          omega
        · right
          have hl := hrs.left
          have hff := g3 xs hmem
          refine ⟨g2, ?_⟩
          rcases hrs.link with hl' | ⟨hd, hd1, k, hl'⟩
          · obtain ⟨rs0, r1, _⟩ := hx.state xs hmem 0 (by omega)
            have : ∃ hd, hd ∈ xs.heads := by
              unfold ShardIndex.readStateAt ShardIndex.readStateForBlotAt at r1
              simp only [bind, Except.bind] at r1
              cases hbl : xs.blotAt 0 with
              | error e => rw [hbl] at r1; cases r1
              | ok bl =>
                rw [hbl] at r1
                simp only [] at r1
                cases hh : xs.heads[bl]? with
                | none => rw [hh] at r1; cases r1
                | some hd => exact ⟨hd, List.mem_of_getElem? hh⟩
            obtain ⟨hd, hd1⟩ := this
            refine ⟨hd, 0, hd1, .inl hl', ?_⟩
            rw [if_pos hl']; omega
          · refine ⟨hd, k, hd1, .inr hl', ?_⟩
            split <;> omega
      have hstep := fillLoop_any hx grow h h.i b.docs.isSome hxs ff src { b with blot := UInt32.ofNat src.blot * q.n + q.i } hrs (fun h => h) hcond
      have hfb : fillBlot grow x ff q b src q.i = fillLoop grow x q q.i b.docs.isSome ff src { b with blot := UInt32.ofNat src.blot * q.n + q.i } := rfl
      rw [← hfb] at hstep
      clear hcond
      rcases hstep with ⟨e, he⟩ | ⟨b', q1, f1, f2, f3, f4⟩
      · left
        simp only [nextLoop, hb, hs, he, bind, Except.bind]
        exact ⟨_, rfl⟩
      have f2' : b.docs.isSome = true → b'.docs.isSome = true ∧ b'.cap = b.cap := f2
      -- after the list was read
      have hw : ∃ o, q1.shardStates = q.shardStates.set q.i.toNat o ∧ q1.nilCount = q.nilCount ∧
          ((o = none ∨ ∃ r : ReadState, o = some r ∧ r.at_ = src.at_ + 1 ∧ src.at_ + 1 < 65536) ∨ (q1.i = q.i ∧ sw o = sw (some src))) := by
        rcases f4 with f4 | ⟨rs', f4, f5⟩
        · obtain ⟨q', o, g1, _, g3, g4, g5⟩ := h.advance hx hrs.at_ h.i
          rw [f4] at g1; injection g1 with g1; subst g1
          exact ⟨o, g4, g3, .inl g5⟩
        · subst f4
          refine ⟨some rs', rfl, rfl, .inr ⟨rfl, ?_⟩⟩
          show 3 ^ (65536 - rs'.at_) = 3 ^ (65536 - src.at_)
          rw [f5]
      obtain ⟨o, w1, w2, w3⟩ := hw
      have w4 := sws_set q.shardStates q.i.toNat _ o hs
      rw [← w1] at w4
      have hgo : ∀ q' : QState, AnyQuery x n q' → q'.nilCount = q.nilCount → toGo q' = toGo q := by
        intro q' h1 h2
        unfold toGo; rw [h1.qn, h2, h.qn]
      by_cases h2 : b'.len ≤ 1
      · obtain ⟨q2, o2, a1, a2, a3, a4, a5⟩ := f3.advance hx hrs.at_ f3.i
        obtain ⟨l, hl⟩ : ∃ l, q1.shardStates[q1.i.toNat]? = some l := ⟨_, List.getElem?_eq_getElem (by rw [f3.len]; exact f3.i)⟩
        have w5 := sws_set q1.shardStates q1.i.toNat l o2 hl
        rw [← a4] at w5
        have hlt : sws q2.shardStates < sws q.shardStates := by
          rcases w3 with w3 | ⟨w3, w6⟩
          · have := sw_two hrs.at_ w3 a5
            omega
          · rw [w3, w1, List.getElem?_set_self (by rw [h.len]; exact h.i)] at hl
            injection hl with hl
            subst hl
            have := sw_two hrs.at_ a5 (.inl rfl)
            omega
        have hg := hgo q2 a2 (a3.trans w2)
        rcases ih q2 k (dst.set k (dropBlot b.docs.isSome b')) a2 (by
          intro c hc
          have hset : (dst.set k (dropBlot b.docs.isSome b')).drop k = dropBlot b.docs.isSome b' :: dst.drop (k + 1) := by
            rw [List.drop_eq_getElem_cons (by simpa using hkl), List.drop_set_of_lt (by omega), List.getElem_set_self]
          rw [hset] at hc
          rcases List.mem_cons.mp hc with rfl | hc
          · exact dropBlot_suits hsuit f2'
          · exact hR c (by rw [hdrop]; exact List.mem_cons_of_mem _ hc)) (by rw [List.length_set]; omega) with g | ⟨r, g1, g2, g3⟩
        · left
          simp only [nextLoop, hb, hs, f1, bind, Except.bind, h2, if_true, a1]; exact g
        · right
          refine ⟨r, ?_, g2, by omega⟩
          simp only [nextLoop, hb, hs, f1, bind, Except.bind, h2, if_true, a1]; exact g1
      · have hle : sws q1.shardStates ≤ sws q.shardStates := by
          rcases w3 with w3 | ⟨w3, w6⟩
          · have := sw_two hrs.at_ w3 (.inl rfl)
            omega
          · omega
        have hg := hgo q1 f3 w2
        rcases ih q1 (k + 1) (dst.set k b') f3 (by
          intro c hc
          rw [List.drop_set_of_lt (by omega)] at hc
          exact hR c (by rw [hdrop]; exact List.mem_cons_of_mem _ hc)) (by rw [List.length_set]; omega) with g | ⟨r, g1, g2, g3⟩
        · left
          simp only [nextLoop, hb, hs, f1, bind, Except.bind, h2, if_false]; exact g
        · right
          refine ⟨r, ?_, g2, by omega⟩
          simp only [nextLoop, hb, hs, f1, bind, Except.bind, h2, if_false]; exact g1

end Dupi.Query
