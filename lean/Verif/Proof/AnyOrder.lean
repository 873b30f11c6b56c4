import Verif.Proof.AnyNext
import Verif.Proof.AnyDir
import Verif.Proof.Damaged
/-! # The order of the visits does not depend on the posting files -/

namespace Dupi

/-- the state of a query on an index with these posting files -/
def QState.withFiles (fs : Nat → Bytes) (q : QState) : QState :=
  { q with shardStates := q.shardStates.mapIdx fun j o => o.map fun s => { s with file := fs j } }

namespace Query

theorem maxLoop_total (ss : List (Option ReadState)) : ∀ (ss' : List (Option ReadState)) (k : Nat) (m p : UInt32),
    ss'.map (Option.map ReadState.total) = ss.map (Option.map ReadState.total) → QState.maxLoop ss' k m p = QState.maxLoop ss k m p := by
  induction ss with
  | nil =>
    intro ss' k m p h
    rw [List.map_nil, List.map_eq_nil_iff] at h
    rw [h]
  | cons o ss ih =>
    intro ss' k m p h
    cases ss' with
    | nil => cases h
    | cons o' ss' =>
      rw [List.map_cons, List.map_cons, List.cons.injEq] at h
      cases o with
      | none =>
        cases o' with
        | none => exact ih ss' _ _ _ h.2
        | some s' => exact absurd h.1 (by simp)
      | some s =>
        cases o' with
        | none => exact absurd h.1 (by simp)
        | some s' =>
          have ht : s'.total = s.total := by simpa using h.1
          simp only [QState.maxLoop, ht]
          split <;> exact ih ss' _ _ _ h.2

theorem totals_with (fs : Nat → Bytes) (ss : List (Option ReadState)) :
    (ss.mapIdx fun j o => o.map fun s => ({ s with file := fs j } : ReadState)).map (Option.map ReadState.total) = ss.map (Option.map ReadState.total) := by
  apply List.ext_getElem?
  intro j
  simp only [List.getElem?_map, List.getElem?_mapIdx]
  cases ss[j]? with
  | none => rfl
  | some o => cases o <;> rfl

theorem shards_with (fs : Nat → Bytes) (x : Index) (j : Nat) : (x.withFiles fs).shards[j]? = (x.shards[j]?).map fun s => { s with file := fs j } := by
  simp only [Index.withFiles, List.getElem?_mapIdx]

theorem states_with (fs : Nat → Bytes) (q : QState) (j : Nat) : (q.withFiles fs).shardStates[j]? = (q.shardStates[j]?).map fun o => o.map fun s => { s with file := fs j } := by
  simp only [QState.withFiles, List.getElem?_mapIdx]

theorem setMax_with (fs : Nat → Bytes) (q : QState) : (q.withFiles fs).setMax = q.setMax.withFiles fs := by
  simp only [QState.setMax, QState.withFiles]
  rw [maxLoop_total _ _ _ _ _ (totals_with fs q.shardStates)]

theorem advance_with (fs : Nat → Bytes) {x : Index} {q q' : QState} {src : ReadState} {pos : UInt32} (f : Bytes) (h : advance x q src pos = .ok q') :
    advance (x.withFiles fs) (q.withFiles fs) { src with file := f } pos = .ok (q'.withFiles fs) := by
  have hset : ∀ o : Option ReadState, ((q.withFiles fs).shardStates.set pos.toNat (o.map fun s => { s with file := fs pos.toNat })) =
      (({ q with shardStates := q.shardStates.set pos.toNat o } : QState).withFiles fs).shardStates := by
    intro o
    apply List.ext_getElem?
    intro j
    rw [List.getElem?_set, states_with, states_with, List.getElem?_set]
    by_cases e : pos.toNat = j
    · subst e
      rw [if_pos rfl, if_pos rfl]
      simp only [QState.withFiles, List.length_mapIdx]
      split <;> rfl
    · rw [if_neg e, if_neg e]
  have key : ∀ o : Option ReadState, (if pos.toNat < q.shardStates.length then (pure (QState.setMax { q with shardStates := q.shardStates.set pos.toNat o }) : M QState) else panic') = .ok q' →
      (if pos.toNat < (q.withFiles fs).shardStates.length then
        (pure (QState.setMax { q.withFiles fs with shardStates := (q.withFiles fs).shardStates.set pos.toNat (o.map fun s => { s with file := fs pos.toNat }) }) : M QState)
        else panic') = .ok (q'.withFiles fs) := by
    intro o ho
    have hl : (q.withFiles fs).shardStates.length = q.shardStates.length := by simp only [QState.withFiles, List.length_mapIdx]
    rw [hl]
    by_cases hp : pos.toNat < q.shardStates.length
    · rw [if_pos hp] at ho ⊢
      simp only [pure, Except.pure, Except.ok.injEq] at ho ⊢
      rw [← ho, ← setMax_with, hset]
      rfl
    · rw [if_neg hp] at ho; cases ho
  unfold advance at h ⊢
  by_cases h1 : src.at_ = 65535
  · simp only [h1, if_true, bind, Except.bind, pure, Except.pure] at h ⊢
    exact key none h
  · simp only [h1, if_false] at h ⊢
    by_cases h2 : src.total ≤ 1
    · simp only [h2, if_true, bind, Except.bind, pure, Except.pure] at h ⊢
      exact key none h
    · simp only [h2, if_false] at h ⊢
      rw [shards_with]
      cases hs : x.shards[pos.toNat]? with
      | none => rw [hs] at h; cases h
      | some sh =>
        rw [hs] at h
        simp only [Option.map_some, readStateAt_with] at h ⊢
        cases hr : sh.readStateAt (src.at_ + 1) with
        | error e => rw [hr] at h; cases h
        | ok rs =>
          rw [hr] at h
          simp only [Except.map, bind, Except.bind] at h ⊢
          exact key (some rs) h

theorem Visits.with (fs : Nat → Bytes) {x : Index} {n : Nat} {cnt : Nat → Nat → Nat} {q : QState} {E : List (Nat × Nat)} (h : Visits x n cnt q E) :
    Visits (x.withFiles fs) n cnt (q.withFiles fs) E := by
  induction h with
  | done h =>
    rename_i q
    refine .done ⟨h.qn, by simp only [QState.withFiles, List.length_mapIdx]; exact h.lenS, h.lenR, ?_, h.i, .inr fun r hr => List.eq_of_mem_replicate hr⟩
    intro j xs s rem k1 k2 k3
    rw [shards_with, Option.map_eq_some_iff] at k1
    rw [states_with, Option.map_eq_some_iff] at k2
    obtain ⟨xs, k1, rfl⟩ := k1
    obtain ⟨s, k2, rfl⟩ := k2
    have := h.at_ j xs s rem k1 k2 k3
    cases s with
    | none => exact this
    | some s =>
      obtain ⟨a, a1, a2, a3⟩ := this
      exact ⟨a, a1, by rw [readStateAt_with, a2]; rfl, a3⟩
  | step s1 s2 s3 s4 s5 s6 s7 s8 s9 s10 ih =>
    rename_i q q' src xs E
    have := Visits.step (x := x.withFiles fs) (n := n) (cnt := cnt) (q := q.withFiles fs) (q' := q'.withFiles fs) (src := { src with file := fs q.i.toNat })
      (xs := { xs with file := fs q.i.toNat }) (E := E) s1 s2 (by rw [states_with]; show (q.shardStates[q.i.toNat]?).map _ = _; rw [s3]; rfl)
      (by rw [shards_with]; show (x.shards[q.i.toNat]?).map _ = _; rw [s4]; rfl) ⟨rfl, s5.2⟩ s6 s7 (advance_with fs _ s8) s9 ih
    exact this

theorem initStates_files (l : List ShardIndex) : ∀ (fs : Nat → Bytes) (ss : List (Option ReadState)), Index.initStates l = .ok ss →
    Index.initStates (l.mapIdx fun i s => { s with file := fs i }) = .ok (ss.mapIdx fun j o => o.map fun s => { s with file := fs j }) := by
  induction l with
  | nil => intro fs ss h; injection h with h; subst h; rfl
  | cons s l ih =>
    intro fs ss h
    rw [List.mapIdx_cons]
    simp only [Index.initStates, readStateAt_with, bind, Except.bind] at h ⊢
    cases h1 : s.readStateAt 0 with
    | error e => rw [h1] at h; cases h
    | ok rs =>
      rw [h1] at h
      simp only [Except.map] at h ⊢
      cases h2 : Index.initStates l with
      | error e => rw [h2] at h; cases h
      | ok ss1 =>
        rw [h2] at h
        simp only [pure, Except.pure, Except.ok.injEq] at h
        subst h
        have := ih (fun i => fs (i + 1)) ss1 h2
        rw [this, List.mapIdx_cons]
        rfl

theorem startQuery_files {x : Index} {q : QState} (fs : Nat → Bytes) (h : x.startQuery = .ok q) : (x.withFiles fs).startQuery = .ok (q.withFiles fs) := by
  unfold Index.startQuery at h ⊢
  simp only [bind, Except.bind] at h ⊢
  cases h1 : Index.initStates x.shards with
  | error e => rw [h1] at h; cases h
  | ok ss =>
    rw [h1] at h
    have h2' : Index.initStates (x.withFiles fs).shards = _ := initStates_files x.shards fs ss h1
    rw [h2']
    simp only [pure, Except.pure, Except.ok.injEq] at h ⊢
    rw [← h, ← setMax_with]
    simp only [QState.withFiles, Index.withFiles, List.length_mapIdx]

theorem AllCounted.with (fs : Nat → Bytes) {srt : Sorter} {x : Index} {n : Nat} {cnt : Nat → Nat → Nat} (h : AllCounted srt x n cnt) :
    AllCounted srt (x.withFiles fs) n cnt := by
  refine ⟨by simp only [Index.withFiles, List.length_mapIdx]; exact h.len, fun j s hs => ?_⟩
  rw [shards_with, Option.map_eq_some_iff] at hs
  obtain ⟨s, hs, rfl⟩ := hs
  obtain ⟨a, b, c, e⟩ := h.sh j s hs
  exact ⟨a, b, c, e⟩

/-- the lists that are said to have at least two documents -/
def allTwo (x : Index) (cnt : Nat → Nat → Nat) : List (List Nat) := x.shards.zipIdx.map fun s => s.1.perm.filter fun q => 2 ≤ cnt s.2 q

section
variable {srt : Sorter} (hsrt : IsSorter srt)
include hsrt

theorem initStates_counted (xs : List ShardIndex) : ∀ (k : Nat) (cnt : Nat → Nat → Nat),
    (∀ (j : Nat) s, xs[j]? = some s → Counted srt s (cnt (k + j))) →
    ∃ ss, Index.initStates xs = .ok ss ∧ ss.length = xs.length ∧
      ∀ (j : Nat) s t, xs[j]? = some s → ss[j]? = some t → VisitAt s (cnt (k + j)) t (s.perm.filter fun q => 2 ≤ cnt (k + j) q) := by
  induction xs with
  | nil => intro k cnt _; exact ⟨[], rfl, rfl, by simp⟩
  | cons x xs ih =>
    intro k cnt h
    obtain ⟨ss, g1, g2, g3⟩ := ih (k + 1) cnt (fun j s hs => by
      have := h (j + 1) s (by simpa using hs)
      rwa [show k + 1 + j = k + (j + 1) by omega])
    have hx := h 0 x rfl
    obtain ⟨q, hq, hlt⟩ := counted_get hsrt hx (a := 0) (by omega)
    obtain ⟨rs, r1, _⟩ := readStateAt_counted hx hq hlt
    refine ⟨some rs :: ss, by simp [Index.initStates, r1, g1, bind, Except.bind, pure, Except.pure], by simp [g2], ?_⟩
    intro j s t hs ht
    cases j with
    | zero =>
      simp only [List.getElem?_cons_zero, Option.some.injEq] at hs ht
      subst hs ht
      exact ⟨0, by omega, r1, by simp⟩
    | succ j =>
      have := g3 j s t (by simpa using hs) (by simpa using ht)
      rwa [show k + 1 + j = k + (j + 1) by omega] at this

theorem startQuery_counted {x : Index} {n : Nat} {cnt : Nat → Nat → Nat} (hx : AllCounted srt x n cnt) (h0 : 0 < n) (hn : n < 2 ^ 32) :
    ∃ q, x.startQuery = .ok q ∧ VInv x n cnt q (allTwo x cnt) := by
  obtain ⟨ss, g1, g2, g3⟩ := initStates_counted hsrt x.shards 0 cnt (fun j s hs => by rw [Nat.zero_add]; exact hx.sh j s hs)
  refine ⟨QState.setMax ⟨ss, 0, UInt32.ofNat n, 0⟩, by simp [Index.startQuery, g1, bind, Except.bind, pure, Except.pure, hx.len], ?_⟩
  refine ⟨rfl, by simp [QState.setMax, g2, hx.len], by simp [allTwo, hx.len], ?_, ?_, .inl rfl⟩
  · intro j xs s rem k1 k2 k3
    have := g3 j xs s k1 k2
    rw [Nat.zero_add] at this
    have e : rem = xs.perm.filter fun q => 2 ≤ cnt j q := by
      rw [allTwo, List.getElem?_map, List.getElem?_zipIdx, k1] at k3
      simp only [Option.map_some, Nat.zero_add, Option.some.injEq] at k3
      exact k3.symm
    rw [e]; exact this
  · show (QState.maxLoop ss 0 0 0).toNat < n
    rcases maxLoop_spec ss 0 0 0 (by rw [g2, hx.len]; omega) with ⟨e, _⟩ | ⟨j, s, e1, e2, _⟩
    · rw [e]; simpa using h0
    · rw [e2]
      have := (List.getElem?_eq_some_iff.mp e1).1
      rw [g2, hx.len] at this; omega

theorem allTwo_mem {x : Index} {n : Nat} {cnt : Nat → Nat → Nat} (hx : AllCounted srt x n cnt) (j b : Nat) :
    (∃ r, (allTwo x cnt)[j]? = some r ∧ b ∈ r) ↔ j < n ∧ b < 65536 ∧ 2 ≤ cnt j b := by
  constructor
  · rintro ⟨r, hr, hb⟩
    rw [allTwo, List.getElem?_map, List.getElem?_zipIdx] at hr
    cases hs : x.shards[j]? with
    | none => simp [hs] at hr
    | some s =>
      simp only [hs, Option.map_some, Nat.zero_add, Option.some.injEq] at hr
      subst hr
      obtain ⟨h1, h2⟩ := List.mem_filter.mp hb
      refine ⟨by rw [← hx.len]; exact (List.getElem?_eq_some_iff.mp hs).1, ?_, by simpa using h2⟩
      rw [(hx.sh j s hs).perm, (hsrt.perm s.counts).mem_iff, List.mem_range, (hx.sh j s hs).lenC] at h1
      exact h1
  · rintro ⟨h1, h2, h3⟩
    obtain ⟨s, hs⟩ : ∃ s, x.shards[j]? = some s := ⟨_, List.getElem?_eq_getElem (by rw [hx.len]; exact h1)⟩
    refine ⟨s.perm.filter fun q => 2 ≤ cnt j q, by simp [allTwo, List.getElem?_zipIdx, hs], List.mem_filter.mpr ⟨?_, by simpa using h3⟩⟩
    rw [(hx.sh j s hs).perm, (hsrt.perm s.counts).mem_iff, List.mem_range, (hx.sh j s hs).lenC]
    exact h2

theorem allTwo_nodup {x : Index} {n : Nat} {cnt : Nat → Nat → Nat} (hx : AllCounted srt x n cnt) : ∀ r ∈ allTwo x cnt, r.Nodup := by
  intro r hr
  obtain ⟨⟨s, j⟩, hm, rfl⟩ := List.mem_map.mp hr
  have hs : x.shards[j]? = some s := by
    have := List.mem_zipIdx hm
    simp at this
    rw [this.2]; exact List.getElem?_eq_getElem _
  exact (counted_nodup hsrt (hx.sh j s hs)).filter _

end
end Query
end Dupi
