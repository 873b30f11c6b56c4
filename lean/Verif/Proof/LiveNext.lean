import Verif.Proof.LiveGet
import Verif.Proof.Index
/-! # Next on an index that grows -/

namespace Dupi
open Spec
namespace Query

/-- the read states of a query between two blots of an unlimited extraction have not been read from -/
def Fresh (x : Index) (q : QState) : Prop :=
  ∀ (j : Nat) s, q.shardStates[j]? = some (some s) → ∃ xs a, x.shards[j]? = some xs ∧ xs.readStateAt a = .ok s

theorem advance_states {x : Index} {q q' : QState} {src : ReadState} {pos : UInt32} (h : advance x q src pos = .ok q') :
    ∃ o, q'.shardStates = q.shardStates.set pos.toNat o ∧ pos.toNat < q.shardStates.length ∧
      ∀ s, o = some s → ∃ xs a, x.shards[pos.toNat]? = some xs ∧ xs.readStateAt a = .ok s := by
  have fin : ∀ o : Option ReadState, (if pos.toNat < q.shardStates.length then
      (.ok (QState.setMax { q with shardStates := q.shardStates.set pos.toNat o }) : M QState) else panic') = .ok q' →
      q'.shardStates = q.shardStates.set pos.toNat o ∧ pos.toNat < q.shardStates.length := by
    intro o h
    by_cases hl : pos.toNat < q.shardStates.length
    · rw [if_pos hl] at h
      injection h with h
      subst h
      exact ⟨rfl, hl⟩
    · rw [if_neg hl] at h; cases h
  unfold advance at h
  simp only [bind, Except.bind, pure, Except.pure] at h
  by_cases h1 : src.at_ = 65535
  · simp only [h1, if_true] at h
    exact ⟨none, (fin none h).1, (fin none h).2, by simp⟩
  · by_cases h2 : src.total ≤ 1
    · simp only [h1, h2, if_true, if_false] at h
      exact ⟨none, (fin none h).1, (fin none h).2, by simp⟩
    · simp only [h1, h2, if_false] at h
      cases hx : x.shards[pos.toNat]? with
      | none => rw [hx] at h; cases h
      | some xs =>
        rw [hx] at h
        simp only at h
        cases hr : xs.readStateAt (src.at_ + 1) with
        | error e => rw [hr] at h; cases h
        | ok s' =>
          rw [hr] at h
          simp only [Except.map] at h
          refine ⟨some s', (fin _ h).1, (fin _ h).2, fun s hs => ?_⟩
          injection hs with hs
          subst hs
          exact ⟨xs, _, rfl, hr⟩

theorem Fresh.advance {x : Index} {q q' : QState} {src : ReadState} {pos : UInt32} (hf : Fresh x q) (h : advance x q src pos = .ok q') : Fresh x q' := by
  obtain ⟨o, h1, h2, h3⟩ := advance_states h
  intro j s hs
  rw [h1, List.getElem?_set] at hs
  split at hs
  · rename_i e
    subst e
    injection hs with hs
    exact h3 s hs
  · exact hf j s hs

theorem initStates_fresh : ∀ (xs : List ShardIndex) {ss : List (Option ReadState)}, Index.initStates xs = .ok ss →
    ∀ (j : Nat) s, ss[j]? = some (some s) → ∃ x a, xs[j]? = some x ∧ x.readStateAt a = .ok s := by
  intro xs
  induction xs with
  | nil => intro ss h; injection h with h; subst h; simp
  | cons x xs ih =>
    intro ss h j s hs
    simp only [Index.initStates, bind, Except.bind, pure, Except.pure] at h
    cases h1 : x.readStateAt 0 with
    | error e => rw [h1] at h; cases h
    | ok s0 =>
      rw [h1] at h
      cases h2 : Index.initStates xs with
      | error e => rw [h2] at h; cases h
      | ok ss' =>
        rw [h2] at h
        injection h with h
        subst h
        cases j with
        | zero =>
          simp only [List.getElem?_cons_zero, Option.some.injEq] at hs
          subst hs
          exact ⟨x, 0, rfl, h1⟩
        | succ j => exact ih h2 j s (by simpa using hs)

theorem startQuery_fresh {x : Index} {q : QState} (h : x.startQuery = .ok q) : Fresh x q := by
  simp only [Index.startQuery, bind, Except.bind, pure, Except.pure] at h
  cases h1 : Index.initStates x.shards with
  | error e => rw [h1] at h; cases h
  | ok ss =>
    rw [h1] at h
    injection h with h
    subst h
    exact initStates_fresh _ h1

/-- What reading a bucket gives, whatever moments the reads fall on: the documents `all` of it, cut off at a `good` place; or an error; or a panic. -/
def FillsL (grow : Nat → Nat) (x : Index) (m : Nat → Dir) (ff : Nat) (all : Nat → Nat → List UInt32) (D : UInt32 → Bytes × UInt32 × UInt32)
    (good : Nat → Nat → Nat → Prop) (err pan : Prop) : Prop :=
  ∀ (q : QState) (src : ReadState) (xs : ShardIndex) (a : Nat) (pos : UInt32) (t : Nat) (b : Blot), x.shards[pos.toNat]? = some xs → xs.readStateAt a = .ok src →
    src.blot < 65536 →
    (∃ t' b' k, fillLoopL grow x m q pos false ff t src b = (advance x q src pos).map (fun q' => (t', b', q')) ∧ b'.blot = b.blot ∧
      b'.vis = b.vis ++ ((all pos.toNat src.blot).take k).map (fun id => Doc.ofMeta (D id)) ∧ good pos.toNat src.blot k) ∨
    (Errs (fillLoopL grow x m q pos false ff t src b) ∧ err) ∨ (fillLoopL grow x m q pos false ff t src b = panic' ∧ pan)

/-- What a call of Next does on a growing index when `E` was to be delivered: it delivers `E1`, the first of `E`, and if that is all of `E`, perhaps others, `X`. -/
structure LSpec (x : Index) (n : Nat) (vals all : Nat → Nat → List UInt32) (D D' : UInt32 → Bytes × UInt32 × UInt32) (good : Nat → Nat → Nat → Prop)
    (E : List (Nat × Nat)) (k : Nat) (dst : List Blot) (q : QState) (r : NextResult) (E1 E2 X : List (Nat × Nat)) : Prop where
  split : E = E1 ++ E2
  count : r.n = k + (E1 ++ X).length
  room : r.n ≤ dst.length
  len : r.dst.length = dst.length
  old : ∀ i, i < k → r.dst[i]? = dst[i]?
  new : ∀ (i : Nat) j b, (E1 ++ X)[i]? = some (j, b) → ∃ bl k', r.dst[k + i]? = some bl ∧ bl.blot = UInt32.ofNat (b * n + j) ∧
    bl.vis = ((all j b).take k').map (fun id => Doc.ofMeta (D' id)) ∧ good j b k' ∧ 2 ≤ bl.vis.length
  late : X ≠ [] → E2 = []
  short : r.n < dst.length → E2 = []
  eof : r.eof = true ↔ r.n = 0 ∧ dst ≠ []
  rest : Delivers x n vals D r.state E2
  fresh : Fresh x r.state
  nones : ∀ j : Nat, q.shardStates[j]? = some none → r.state.shardStates[j]? = some none
  once : (X.map Prod.fst).Nodup
  extra : ∀ jb ∈ X, jb.1 < n ∧ jb.2 < 65536 ∧ (vals jb.1 jb.2).length ≤ 1 ∧ q.shardStates[jb.1]? ≠ some none ∧ r.state.shardStates[jb.1]? = some none

section
variable {srt : Sorter} (hsrt : IsSorter srt)
variable {x : Index} {n : Nat} {vals all : Nat → Nat → List UInt32} {D D' : UInt32 → Bytes × UInt32 × UInt32} (hx : Holds srt x n vals D) (hn : n < 2 ^ 32)

theorem set_none_none (ss : List (Option ReadState)) (i j : Nat) (h : ss[j]? = some none) : (ss.set i none)[j]? = some none := by
  rw [List.getElem?_set]
  split
  · rename_i e
    subst e
    rw [if_pos (List.getElem?_eq_some_iff.mp h).1]
  · exact h

include hsrt hx hn in
/-- the two advances over an exhausted shard -/
theorem exh_adv {q : QState} (h : QInv x n vals q (List.replicate n [])) {src : ReadState} (hs : q.shardStates[q.i.toNat]? = some (some src)) :
    src.blot < 65536 ∧ (vals q.i.toNat src.blot).length ≤ 1 ∧
    ∃ q1 q2, Query.advance x q src q.i = .ok q1 ∧ QInv x n vals q1 (List.replicate n []) ∧ q1.nilCount = q.nilCount ∧ q1.shardStates = q.shardStates.set q.i.toNat none ∧
      opens q1 + 1 ≤ opens q ∧
      Query.advance x q1 src q1.i = .ok q2 ∧ QInv x n vals q2 (List.replicate n []) ∧ q2.nilCount = q.nilCount ∧
      q2.shardStates = (q.shardStates.set q.i.toNat none).set q1.i.toNat none ∧ opens q2 + 1 ≤ opens q := by
  have getX : ∀ j, j < n → ∃ s, x.shards[j]? = some s := fun j hj => ⟨_, List.getElem?_eq_getElem (by rw [hx.len]; exact hj)⟩
  obtain ⟨xs, hxs⟩ := getX _ h.i
  have hr : (List.replicate n ([] : List Nat))[q.i.toNat]? = some [] := by rw [List.getElem?_replicate, if_pos h.i]
  obtain ⟨g1, g2, g3, g4, g5, g6⟩ := shardAt_some hsrt (hx.sh _ xs hxs) (h.at_ _ xs _ _ hxs hs hr)
  have ht : src.total.toNat ≤ 1 := by
    false_or_by_contra
    rename_i hc
    obtain ⟨rest, o, e, _⟩ := g6 (by omega)
    simp at e
  have hset : ∀ j : Nat, (List.replicate n ([] : List Nat)).set j [] = List.replicate n [] := by
    intro j
    apply List.ext_getElem?
    intro k
    rw [List.getElem?_set]
    split
    · subst_vars; simp [List.getElem?_replicate]
    · rfl
  obtain ⟨q1, a1, a2, a3, a4⟩ := QInv.advance hx hn h (src := src) (pos := q.i) hxs (g5 ht).2 (rest := []) rfl
  rw [hset] at a2
  obtain ⟨ys, hys⟩ := getX _ a2.i
  have hns : nextState ys src = .ok none := by
    unfold nextState
    split
    · rfl
    · rw [if_pos (by rw [UInt32.le_iff_toNat_le]; exact ht)]
  obtain ⟨q2, c1, c2, c3, c4⟩ := QInv.advance hx hn a2 (src := src) (pos := q1.i) hys hns (rest := []) rfl
  rw [hset] at c2
  have hl1 : q.i.toNat < q.shardStates.length := by rw [h.lenS]; exact h.i
  have e1 : (q.shardStates.set q.i.toNat none).countP Option.isSome + 1 = q.shardStates.countP Option.isSome := by
    rw [List.countP_set hl1]
    have hg : q.shardStates[q.i.toNat] = some src := (List.getElem?_eq_some_iff.mp hs).2
    have hp : 0 < q.shardStates.countP Option.isSome := List.countP_pos_iff.mpr ⟨some src, List.mem_of_getElem? hs, rfl⟩
    simp [hg]; omega
  have e2 : ((q.shardStates.set q.i.toNat none).set q1.i.toNat none).countP Option.isSome ≤ (q.shardStates.set q.i.toNat none).countP Option.isSome := by
    rw [List.countP_set (by rw [List.length_set, h.lenS]; exact a2.i)]
    simp
  refine ⟨g1, by omega, q1, q2, a1, a2, a3, a4, ?_, c1, c2, by rw [c3, a3], by rw [c4, a4], ?_⟩
  · unfold opens; rw [a4]; omega
  · unfold opens; rw [c4, a4]; omega

theorem vis_len (b : Blot) : b.len = b.vis.length := by unfold Blot.len Blot.vis; cases b.docs <;> rfl

/-- ok and specified, or a failure -/
def LOut (x : Index) (n : Nat) (vals all : Nat → Nat → List UInt32) (D D' : UInt32 → Bytes × UInt32 × UInt32) (good : Nat → Nat → Nat → Prop) (err pan : Prop)
    (E : List (Nat × Nat)) (k : Nat) (dst : List Blot) (q : QState) (o : M NextResult) : Prop :=
  (∃ r E1 E2 X, o = .ok r ∧ LSpec x n vals all D D' good E k dst q r E1 E2 X) ∨ (Errs o ∧ err) ∨ (o = panic' ∧ pan)

theorem LSpec.full {good : Nat → Nat → Nat → Prop} {E : List (Nat × Nat)} {k : Nat} {dst : List Blot} {q : QState} (hk : k = dst.length) (hd : Delivers x n vals D q E)
    (hf : Fresh x q) : LSpec x n vals all D D' good E k dst q ⟨k, false, dst, q⟩ [] E [] where
  split := rfl
  count := by simp
  room := by simp [hk]
  len := rfl
  old := fun _ _ => rfl
  new := by simp
  late := by simp
  short := by simp [hk]
  eof := by
    simp only [Bool.false_eq_true, false_iff, not_and, Decidable.not_not]
    intro e; exact List.length_eq_zero_iff.mp (by omega)
  rest := hd
  fresh := hf
  nones := fun _ h => h
  once := by simp
  extra := by simp

/-- one more delivered at the front, from `E` or not -/
theorem LSpec.cons {good : Nat → Nat → Nat → Prop} {E E' E1 E2 X : List (Nat × Nat)} {k : Nat} {dst : List Blot} {q q' : QState} {r : NextResult} {b' : Blot}
    (h : LSpec x n vals all D D' good E (k + 1) (dst.set k b') q' r E1 E2 X) (hk : k < dst.length) {j o k' : Nat} (hb : b'.blot = UInt32.ofNat (o * n + j))
    (hv : b'.vis = ((all j o).take k').map (fun id => Doc.ofMeta (D' id))) (hg : good j o k') (h2 : 2 ≤ b'.vis.length)
    (hnone : ∀ i : Nat, q.shardStates[i]? = some none → q'.shardStates[i]? = some none)
    (hor : (E' = (j, o) :: E) ∨ (E' = [] ∧ E = [] ∧ j < n ∧ o < 65536 ∧ (vals j o).length ≤ 1 ∧ q.shardStates[j]? ≠ some none ∧ q'.shardStates[j]? = some none)) :
    ∃ E1 X, LSpec x n vals all D D' good E' k dst q r E1 E2 X := by
  have hl := h.len
  rw [List.length_set] at hl
  have hroom := h.room
  rw [List.length_set] at hroom
  have hshort := h.short
  rw [List.length_set] at hshort
  have heof := h.eof
  simp only [ne_eq, List.set_eq_nil_iff] at heof
  have hold : ∀ i, i < k → r.dst[i]? = dst[i]? := fun i hi => by rw [h.old i (by omega), List.getElem?_set_ne (by omega)]
  have hnew : ∀ (Y : List (Nat × Nat)), (∀ (i : Nat) j b, Y[i]? = some (j, b) → ∃ bl k', r.dst[k + 1 + i]? = some bl ∧ bl.blot = UInt32.ofNat (b * n + j) ∧
      bl.vis = ((all j b).take k').map (fun id => Doc.ofMeta (D' id)) ∧ good j b k' ∧ 2 ≤ bl.vis.length) →
      ∀ (i : Nat) j' b, ((j, o) :: Y)[i]? = some (j', b) → ∃ bl k', r.dst[k + i]? = some bl ∧ bl.blot = UInt32.ofNat (b * n + j') ∧
      bl.vis = ((all j' b).take k').map (fun id => Doc.ofMeta (D' id)) ∧ good j' b k' ∧ 2 ≤ bl.vis.length := by
    intro Y hY i j' b hi
    cases i with
    | zero =>
      simp only [List.getElem?_cons_zero, Option.some.injEq, Prod.mk.injEq] at hi
      obtain ⟨rfl, rfl⟩ := hi
      exact ⟨b', k', by rw [Nat.add_zero, h.old k (by omega), List.getElem?_set_self hk], hb, hv, hg, h2⟩
    | succ i =>
      have := hY i j' b (by simpa using hi)
      rwa [Nat.add_assoc, Nat.add_comm 1 i] at this
  have hn2 : ∀ i : Nat, q.shardStates[i]? = some none → r.state.shardStates[i]? = some none := fun i hi => h.nones i (hnone i hi)
  have hextra : ∀ jb ∈ X, jb.1 < n ∧ jb.2 < 65536 ∧ (vals jb.1 jb.2).length ≤ 1 ∧ q.shardStates[jb.1]? ≠ some none ∧ r.state.shardStates[jb.1]? = some none := by
    intro jb hjb
    obtain ⟨a1, a2, a3, a4, a5⟩ := h.extra jb hjb
    exact ⟨a1, a2, a3, fun hc => a4 (hnone _ hc), a5⟩
  have hs := h.split
  rcases hor with rfl | ⟨rfl, rfl, o1, o2, o3, o4, o5⟩
  · refine ⟨(j, o) :: E1, X, by rw [hs]; rfl, by rw [h.count]; simp; omega, hroom, hl, hold, hnew _ h.new, h.late, hshort, heof, h.rest, h.fresh, hn2, h.once, hextra⟩
  · have e1 : E1 = [] := by cases E1 with | nil => rfl | cons => cases hs
    have e2 : E2 = [] := by cases E2 with | nil => rfl | cons => rw [e1] at hs; cases hs
    subst e1 e2
    refine ⟨[], (j, o) :: X, rfl, by rw [h.count]; simp; omega, hroom, hl, hold, by simpa using hnew X (by simpa using h.new), fun _ => rfl, hshort, heof, h.rest, h.fresh, hn2, ?_, ?_⟩
    · rw [List.map_cons, List.nodup_cons]
      refine ⟨?_, h.once⟩
      intro hm
      obtain ⟨jb, hjb, he⟩ := List.mem_map.mp hm
      have := (h.extra jb hjb).2.2.2.1
      rw [he] at this
      exact this o5
    · intro jb hjb
      rcases List.mem_cons.mp hjb with rfl | hjb
      · exact ⟨o1, o2, o3, o4, h.nones _ o5⟩
      · exact hextra jb hjb

/-- the same after a pass that delivers nothing -/
theorem LSpec.skip {good : Nat → Nat → Nat → Prop} {E1 E2 X : List (Nat × Nat)} {k : Nat} {dst dst' : List Blot} {q q' : QState} {r : NextResult}
    (h : LSpec x n vals all D D' good [] k dst' q' r E1 E2 X) (hd : dst'.length = dst.length) (hd' : ∀ i, i < k → dst'[i]? = dst[i]?)
    (hnone : ∀ i : Nat, q.shardStates[i]? = some none → q'.shardStates[i]? = some none) :
    LSpec x n vals all D D' good [] k dst q r E1 E2 X where
  split := h.split
  count := h.count
  room := by rw [← hd]; exact h.room
  len := by rw [← hd]; exact h.len
  old := fun i hi => by rw [h.old i hi, hd' i hi]
  new := h.new
  late := h.late
  short := by rw [← hd]; exact h.short
  eof := by
    rw [h.eof]
    have : dst' ≠ [] ↔ dst ≠ [] := by rw [ne_eq, ne_eq, ← List.length_eq_zero_iff, ← List.length_eq_zero_iff, hd]
    rw [this]
  rest := h.rest
  fresh := h.fresh
  nones := fun i hi => h.nones i (hnone i hi)
  once := h.once
  extra := fun jb hjb => by
    obtain ⟨a1, a2, a3, a4, a5⟩ := h.extra jb hjb
    exact ⟨a1, a2, a3, fun hc => a4 (hnone _ hc), a5⟩

include hsrt hx hn in
/-- Next when nothing of the old index is left to deliver -/
theorem nextLoopL_exh (grow : Nat → Nat) {m : Nat → Dir} {ff : Nat} {good : Nat → Nat → Nat → Prop} {err pan : Prop} (hF : FillsL grow x m ff all D' good err pan)
    (fuel : Nat) : ∀ (t k : Nat) (q : QState) (dst : List Blot),
    QInv x n vals q (List.replicate n []) → Fresh x q → NilFrom k dst → k ≤ dst.length → opens q + toGo q < fuel →
    LOut x n vals all D D' good err pan [] k dst q (nextLoopL grow x m ff fuel t q k dst) := by
  induction fuel with
  | zero => intro t k q dst _ _ _ _ hf; omega
  | succ fuel ih =>
    intro t k q dst h hfr hnil hk hf
    by_cases he : k = dst.length
    · refine .inl ⟨_, [], [], [], ?_, LSpec.full he (.done h) hfr⟩
      simp only [nextLoopL, List.getElem?_eq_none (show dst.length ≤ k by omega)]
    have hk : k < dst.length := by omega
    obtain ⟨b, hb⟩ : ∃ b, dst[k]? = some b := ⟨_, List.getElem?_eq_getElem hk⟩
    obtain ⟨s, hs⟩ : ∃ s, q.shardStates[q.i.toNat]? = some s := ⟨_, List.getElem?_eq_getElem (by rw [h.lenS]; exact h.i)⟩
    cases s with
    | none =>
      simp only [nextLoopL, hb, hs]
      obtain ⟨t1, t2⟩ := toGo_step q (q' := { q with nilCount := q.nilCount + 1 }) rfl rfl
      by_cases he : q.nilCount + 1 = q.n
      · simp only [he, if_true]
        refine .inl ⟨_, [], [], [], rfl, ⟨rfl, by simp, by show k ≤ _; omega, rfl, fun _ _ => rfl, by simp, by simp, by simp, ?_,
          .done ⟨h.qn, h.lenS, h.lenR, h.at_, h.i, .inr fun r hr => List.eq_of_mem_replicate hr⟩, hfr, fun _ h => h, by simp, by simp⟩⟩
        simp only [beq_iff_eq]
        exact ⟨fun h0 => ⟨h0, by intro hc; simp [hc] at hk⟩, And.left⟩
      · simp only [he, if_false]
        have hne : toGo q ≠ 1 := fun e => he (t1.mpr e)
        have t2 := t2 hne
        have hq : toGo { q with nilCount := q.nilCount + 1, i := if q.i + 1 = q.n then 0 else q.i + 1 } = toGo { q with nilCount := q.nilCount + 1 } := rfl
        have hop : opens { q with nilCount := q.nilCount + 1, i := if q.i + 1 = q.n then 0 else q.i + 1 } = opens q := rfl
        rcases ih t k { q with nilCount := q.nilCount + 1, i := if q.i + 1 = q.n then 0 else q.i + 1 } dst (h.next hn) hfr hnil (by omega) (by rw [hop, hq]; omega) with
          ⟨r, E1, E2, X, e1, e2⟩ | e
        · exact .inl ⟨r, E1, E2, X, e1, e2.skip rfl (fun _ _ => rfl) (fun _ h => h)⟩
        · exact .inr e
    | some src =>
      have hbn := hnil k b (Nat.le_refl _) hb
      obtain ⟨a1, a2, q1, q2, c1, c2, c3, c4, c5, d1, d2, d3, d4, d5⟩ := exh_adv hsrt hx hn h hs
      obtain ⟨xs, a, f1, f2⟩ := hfr _ _ hs
      have hfill : fillBlotL grow x m ff t q b src q.i = fillLoopL grow x m q q.i false ff t src { b with blot := UInt32.ofNat src.blot * q.n + q.i } := by
        simp only [fillBlotL, hbn, Option.isSome_none]
      rcases hF q src xs a q.i t { b with blot := UInt32.ofNat src.blot * q.n + q.i } f1 f2 a1 with ⟨t', b', k', g1, g2, g3, g4⟩ | ⟨⟨e, g1⟩, g2⟩ | ⟨g1, g2⟩
      · rw [c1] at g1
        simp only [Except.map] at g1
        by_cases hl : b'.len ≤ 1
        · simp only [nextLoopL, hb, hs, hfill, g1, bind, Except.bind, hl, if_true, d1]
          rw [hbn, Option.isSome_none]
          have hg : toGo q2 = toGo q := by unfold toGo; rw [d3, d2.qn, h.qn]
          rcases ih t' k q2 (dst.set k (dropBlot false b')) d2 ((hfr.advance c1).advance d1) (by
            intro i c hi hc
            rw [List.getElem?_set] at hc
            split at hc
            · injection hc with hc
              rw [← hc]; exact dropBlot_nil _
            · exact hnil i c hi hc) (by simp; omega) (by omega) with ⟨r, E1, E2, X, e1, e2⟩ | e
          · refine .inl ⟨r, E1, E2, X, e1, e2.skip (by simp) (fun i hi => by rw [List.getElem?_set_ne (by omega)]) fun i hi => ?_⟩
            rw [d4]
            exact set_none_none _ _ _ (set_none_none _ _ _ hi)
          · exact .inr e
        · simp only [nextLoopL, hb, hs, hfill, g1, bind, Except.bind, hl, if_false]
          have hg : toGo q1 = toGo q := by unfold toGo; rw [c3, c2.qn, h.qn]
          rcases ih t' (k + 1) q1 (dst.set k b') c2 (hfr.advance c1) (by
            intro i c hi hc
            rw [List.getElem?_set_ne (by omega)] at hc
            exact hnil i c (by omega) hc) (by simp; omega) (by omega) with ⟨r, E1, E2, X, e1, e2⟩ | e
          · have hblot : b'.blot = UInt32.ofNat (src.blot * n + q.i.toNat) := by
              rw [g2]
              apply UInt32.toNat_inj.mp
              rw [h.qn]
              simp [UInt32.toNat_add, UInt32.toNat_mul]
            rw [vis_len] at hl
            obtain ⟨E1', X', e3⟩ := e2.cons (q := q) (E' := []) hk hblot (by rw [g3]; simp [Blot.vis, hbn]) g4 (by omega)
              (fun i hi => by rw [c4]; exact set_none_none _ _ _ hi) (.inr ⟨rfl, rfl, h.i, a1, a2, by rw [hs]; simp, by
                rw [c4, List.getElem?_set_self (by rw [h.lenS]; exact h.i)]⟩)
            exact .inl ⟨r, E1', E2, X', e1, e3⟩
          · exact .inr e
      · refine .inr (.inl ⟨⟨e, ?_⟩, g2⟩)
        simp only [nextLoopL, hb, hs, hfill, g1, bind, Except.bind, fail]
      · refine .inr (.inr ⟨?_, g2⟩)
        simp only [nextLoopL, hb, hs, hfill, g1, bind, Except.bind, panic']

include hsrt hx hn in
theorem nextLoopL_delivers (grow : Nat → Nat) {m : Nat → Dir} {ff : Nat} {good : Nat → Nat → Nat → Prop} {err pan : Prop} (hF : FillsL grow x m ff all D' good err pan)
    (hgood : ∀ j o k, good j o k → (vals j o).length ≤ k ∧ k ≤ (all j o).length)
    {q : QState} {E : List (Nat × Nat)} (h : Delivers x n vals D q E) : ∀ (t k fuel : Nat) (dst : List Blot), Fresh x q →
    NilFrom k dst → k ≤ dst.length → E.length + n + toGo q < fuel →
    LOut x n vals all D D' good err pan E k dst q (nextLoopL grow x m ff fuel t q k dst) := by
  induction h with
  | done h =>
    rename_i q0
    intro t k fuel dst hfr hnil hk hf
    have ho : opens q0 ≤ n := by
      have := List.countP_le_length (p := Option.isSome) (l := q0.shardStates)
      rw [h.lenS] at this; exact this
    exact nextLoopL_exh hsrt hx hn grow hF fuel t k q0 dst h hfr hnil hk (by simp at hf; omega)
  | step s1 s2 s3 s4 s5 s6 s7 s8 s9 s10 s11 ih =>
    rename_i q q' src E
    intro t k fuel dst hfr hnil hk hf
    obtain ⟨f, rfl⟩ : ∃ f, fuel = f + 1 := ⟨fuel - 1, by omega⟩
    by_cases he : k = dst.length
    · refine .inl ⟨_, [], _, [], ?_, LSpec.full he (.step s1 s2 s3 s4 s5 s6 s7 s8 s9 s10 s11) hfr⟩
      simp only [nextLoopL, List.getElem?_eq_none (show dst.length ≤ k by omega)]
    · have hk' : k < dst.length := by omega
      obtain ⟨b, hb⟩ : ∃ b, dst[k]? = some b := ⟨_, List.getElem?_eq_getElem hk'⟩
      have hbn := hnil k b (Nat.le_refl _) hb
      obtain ⟨xs, a, f1, f2⟩ := hfr _ _ s3
      have hfill : fillBlotL grow x m ff t q b src q.i = fillLoopL grow x m q q.i false ff t src { b with blot := UInt32.ofNat src.blot * q.n + q.i } := by
        simp only [fillBlotL, hbn, Option.isSome_none]
      rcases hF q src xs a q.i t { b with blot := UInt32.ofNat src.blot * q.n + q.i } f1 f2 s5 with ⟨t', b', k', g1, g2, g3, g4⟩ | ⟨⟨e, g1⟩, g2⟩ | ⟨g1, g2⟩
      · rw [s9] at g1
        simp only [Except.map] at g1
        obtain ⟨w1, w2⟩ := hgood _ _ _ g4
        have hv : 2 ≤ b'.vis.length := by rw [g3]; simp [Blot.vis, hbn]; omega
        have hl : ¬ b'.len ≤ 1 := by rw [vis_len]; omega
        simp only [nextLoopL, hb, s3, hfill, g1, bind, Except.bind, hl, if_false]
        have hqn : q'.n = q.n := by rw [s11.n, s1]
        have hg : toGo q' = toGo q := by unfold toGo; rw [hqn, s10]
        rcases ih t' (k + 1) f (dst.set k b') (hfr.advance s9) (by
          intro i c hi hc
          rw [List.getElem?_set_ne (by omega)] at hc
          exact hnil i c (by omega) hc) (by simp; omega) (by simp at hf; omega) with ⟨r, E1, E2, X, e1, e2⟩ | e
        · have hblot : b'.blot = UInt32.ofNat (src.blot * n + q.i.toNat) := by
            rw [g2]
            apply UInt32.toNat_inj.mp
            rw [s1]
            simp [UInt32.toNat_add, UInt32.toNat_mul]
          obtain ⟨o, o1, o2, _⟩ := advance_states s9
          obtain ⟨E1', X', e3⟩ := e2.cons (q := q) (E' := (q.i.toNat, src.blot) :: E) hk' hblot (by rw [g3]; simp [Blot.vis, hbn]) g4 hv
            (fun i hi => by
              rw [o1, List.getElem?_set_ne]
              · exact hi
              · intro hc; rw [← hc, s3] at hi; cases hi) (.inl rfl)
          exact .inl ⟨r, E1', E2, X', e1, e3⟩
        · exact .inr e
      · refine .inr (.inl ⟨⟨e, ?_⟩, g2⟩)
        simp only [nextLoopL, hb, s3, hfill, g1, bind, Except.bind, fail]
      · refine .inr (.inr ⟨?_, g2⟩)
        simp only [nextLoopL, hb, s3, hfill, g1, bind, Except.bind, panic']

end

section
variable {x : Index} {m : Nat → Dir} {pos : UInt32} {o : Nat} {D : UInt32 → Bytes × UInt32 × UInt32}

/-- fillBlot while the file of the bucket grows -/
theorem fillLoopL_chase (grow : Nat → Nat) {bs bs' : List Blk} (hwf : ∀ b ∈ bs', b.WF) (hsz : sizes bs' < 2 ^ 63)
    (hg : ∀ t, Growing bs bs' ((m t).contents (.pos pos.toNat))) {K : UInt32 → Prop} (q : QState) (src : ReadState) :
    ∀ (fuel t : Nat) {ps : Posts} {rem : List UInt32} {need : Nat} (b : Blot),
    Chase o bs bs' ps rem need →
    (∀ id ∈ rem, ∀ t, (x.docid2DocL (m t) id = .ok (D id) ∧ K id) ∨ Errs (x.docid2DocL (m t) id) ∨ (x.docid2DocL (m t) id = panic' ∧ ¬ K id)) → rem.length < fuel →
    (∃ t' b' k, fillLoopL grow x m q pos false fuel t { src with posts := ps } b = (advance x q src pos).map (fun q' => (t', b', q')) ∧ need ≤ k ∧ k ≤ rem.length ∧ b'.blot = b.blot ∧
      b'.vis = b.vis ++ (rem.take k).map (fun id => Doc.ofMeta (D id)) ∧ ∀ id ∈ rem.take k, K id) ∨
    Errs (fillLoopL grow x m q pos false fuel t { src with posts := ps } b) ∨
    (fillLoopL grow x m q pos false fuel t { src with posts := ps } b = panic' ∧ ∃ id ∈ rem, ¬ K id) := by
  intro fuel
  induction fuel with
  | zero => intro t ps rem need b _ _ h; omega
  | succ f ih =>
    intro t ps rem need b h hD hf
    rcases h.next hwf hsz (fs := fun k => (m (t + k)).contents (.pos pos.toNat)) (fun k => hg _) with ⟨h1, h2⟩ | ⟨e, h1, h2⟩ | ⟨v, rem', p', h1, h2, h3⟩
    · refine .inl ⟨t + 12, b, 0, ?_, by omega, by omega, rfl, by simp, by simp⟩
      have : Query.advance x q { src with posts := ps } pos = Query.advance x q src pos := rfl
      simp only [fillLoopL, h1, fail, Bool.not_false, Bool.true_or, if_true, bind, Except.bind, pure, Except.pure, this]
      cases Query.advance x q src pos <;> rfl
    · refine .inr (.inl ⟨e, ?_⟩)
      simp only [fillLoopL, h1, fail, Bool.not_false, Bool.true_or, if_true]
      cases e <;> first | rfl | exact absurd rfl h2
    · subst h1
      obtain ⟨b1, n1, n2, n3⟩ := Blot.next_unlim grow b (D v)
      rcases hD v (by simp) (t + 11) with ⟨g1, g2⟩ | ⟨e, g1⟩ | ⟨g1, g2⟩
      · have hrun : fillLoopL grow x m q pos false (f + 1) t { src with posts := ps } b = fillLoopL grow x m q pos false f (t + 12) { src with posts := p' } (b1.setLast (D v)) := by
          simp only [fillLoopL, h2, n1, bind, Except.bind, g1, Bool.not_false, Bool.true_or, if_true]
        rw [hrun]
        rcases ih (t + 12) (b1.setLast (D v)) h3 (fun i hi => hD i (by simp [hi])) (by simp at hf; omega) with
          ⟨t', b', k, k1, k2, k3, k4, k5, k6⟩ | he | ⟨hp, i, hi, hi'⟩
        · refine .inl ⟨t', b', k + 1, k1, by omega, by simp; omega, by rw [k4, n3], by rw [k5, n2]; simp, ?_⟩
          intro id hid
          rw [List.take_succ_cons] at hid
          rcases List.mem_cons.mp hid with rfl | hid
          · exact g2
          · exact k6 id hid
        · exact .inr (.inl he)
        · exact .inr (.inr ⟨hp, i, by simp [hi], hi'⟩)
      · refine .inr (.inl ⟨e, ?_⟩)
        simp only [fillLoopL, h2, n1, bind, Except.bind, g1, fail, Bool.not_false, Bool.true_or, if_true]
      · refine .inr (.inr ⟨?_, v, by simp, g2⟩)
        simp only [fillLoopL, h2, n1, bind, Except.bind, g1, panic', Bool.not_false, Bool.true_or, if_true]

/-- fillBlot of a bucket nobody touches -/
theorem fillLoopL_quiet (grow : Nat → Nat) (q : QState) (src : ReadState) (rem : List UInt32) :
    ∀ (fuel t : Nat) {off : Nat} {bs : List Blk} {ps : Posts} (b : Blot), Left o off bs ps rem →
    (rem ≠ [] → ∀ t, Covers o ((m t).contents (.pos pos.toNat)) off bs) → (∀ id ∈ rem, ∀ t, x.docid2DocL (m t) id = .ok (D id)) → rem.length < fuel →
    ∃ t' b', fillLoopL grow x m q pos false fuel t { src with posts := ps } b = (advance x q src pos).map (fun q' => (t', b', q')) ∧ b'.blot = b.blot ∧
      b'.vis = b.vis ++ rem.map fun id => Doc.ofMeta (D id) := by
  induction rem with
  | nil =>
    intro fuel t off bs ps b h _ _ hf
    obtain ⟨f, rfl⟩ : ∃ f, fuel = f + 1 := ⟨fuel - 1, by simp at hf; omega⟩
    refine ⟨t + 12, b, ?_, rfl, by simp⟩
    have : Query.advance x q { src with posts := ps } pos = Query.advance x q src pos := rfl
    simp only [fillLoopL, h.eof, fail, Bool.not_false, Bool.true_or, if_true, bind, Except.bind, pure, Except.pure, this]
    cases Query.advance x q src pos <;> rfl
  | cons id rem ih =>
    intro fuel t off bs ps b h hc hD hf
    obtain ⟨f, rfl⟩ : ∃ f, fuel = f + 1 := ⟨fuel - 1, by simp at hf; omega⟩
    have hc := hc (by simp)
    obtain ⟨p, off', bs', h1, h2, h3⟩ := h.step (fs := fun k => (m (t + k)).contents (.pos pos.toNat)) fun k => hc _
    obtain ⟨b1, g1, g2, g3⟩ := Blot.next_unlim grow b (D id)
    obtain ⟨t', b', k1, k2, k3⟩ := ih f (t + 12) (b1.setLast (D id)) h2 (fun _ t => h3 _ (hc t)) (fun i hi => hD i (by simp [hi])) (by simp at hf; omega)
    refine ⟨t', b', ?_, by rw [k2, g3], by rw [k3, g2]; simp⟩
    simp only [fillLoopL, h1, g1, bind, Except.bind, hD id (by simp), Bool.not_false, Bool.true_or, if_true]
    exact k1

end

/-- a read state not yet read from -/
theorem readStateAt_posts {xs : ShardIndex} {a : Nat} {src : ReadState} (h : xs.readStateAt a = .ok src) :
    ∃ hd ct, xs.heads[src.blot]? = some hd ∧ xs.counts[src.blot]? = some ct ∧ src.posts = Posts.new hd ∧ src.total = ct := by
  simp only [ShardIndex.readStateAt, ShardIndex.blotAt, bind, Except.bind] at h
  cases h1 : xs.perm[a]? with
  | none => rw [h1] at h; cases h
  | some b =>
    rw [h1] at h
    simp only [ShardIndex.readStateForBlotAt] at h
    cases h2 : xs.heads[b]? with
    | none => rw [h2] at h; cases h
    | some hd =>
      cases h3 : xs.counts[b]? with
      | none => rw [h2, h3] at h; cases h
      | some ct =>
        rw [h2, h3] at h
        injection h with h
        subst h
        exact ⟨hd, ct, h2, h3, rfl, rfl⟩

theorem initStates_zero : ∀ (xs : List ShardIndex) {ss : List (Option ReadState)}, Index.initStates xs = .ok ss → ss.length = xs.length ∧
    ∀ (j : Nat) x, xs[j]? = some x → ∃ s, ss[j]? = some (some s) ∧ x.readStateAt 0 = .ok s := by
  intro xs
  induction xs with
  | nil => intro ss h; injection h with h; subst h; simp
  | cons x xs ih =>
    intro ss h
    simp only [Index.initStates, bind, Except.bind, pure, Except.pure] at h
    cases h1 : x.readStateAt 0 with
    | error e => rw [h1] at h; cases h
    | ok s0 =>
      rw [h1] at h
      cases h2 : Index.initStates xs with
      | error e => rw [h2] at h; cases h
      | ok ss' =>
        rw [h2] at h
        injection h with h
        subst h
        obtain ⟨i1, i2⟩ := ih h2
        refine ⟨by simp [i1], fun j y hy => ?_⟩
        cases j with
        | zero =>
          simp only [List.getElem?_cons_zero, Option.some.injEq] at hy
          subst hy
          exact ⟨s0, rfl, h1⟩
        | succ j =>
          obtain ⟨s, g1, g2⟩ := i2 j y (by simpa using hy)
          exact ⟨s, by simpa using g1, g2⟩

theorem readStateAt_blot {xs : ShardIndex} {a : Nat} {src : ReadState} (h : xs.readStateAt a = .ok src) : xs.perm[a]? = some src.blot := by
  simp only [ShardIndex.readStateAt, ShardIndex.blotAt, bind, Except.bind] at h
  cases h1 : xs.perm[a]? with
  | none => rw [h1] at h; cases h
  | some b =>
    rw [h1] at h
    simp only [ShardIndex.readStateForBlotAt] at h
    cases h2 : xs.heads[b]? with
    | none => rw [h2] at h; cases h
    | some hd =>
      cases h3 : xs.counts[b]? with
      | none => rw [h2, h3] at h; cases h
      | some ct =>
        rw [h2, h3] at h
        injection h with h
        subst h
        rfl

/-- a fresh query of an index that is not empty is at a bucket that is not -/
theorem start_max {srt : Sorter} (hsrt : IsSorter srt) {x : Index} {n : Nat} {vals : Nat → Nat → List UInt32} {D : UInt32 → Bytes × UInt32 × UInt32}
    (hx : Holds srt x n vals D) (hn : n < 2 ^ 32) {q : QState} (hq : x.startQuery = .ok q) {j b : Nat} (hj : j < n) (hb : b < 65536) (hv : vals j b ≠ []) :
    ∃ src xs a, q.shardStates[q.i.toNat]? = some (some src) ∧ x.shards[q.i.toNat]? = some xs ∧ xs.readStateAt a = .ok src ∧ vals q.i.toNat src.blot ≠ [] := by
  have hfr := startQuery_fresh hq
  simp only [Index.startQuery, bind, Except.bind, pure, Except.pure] at hq
  cases h1 : Index.initStates x.shards with
  | error e => rw [h1] at hq; cases hq
  | ok ss =>
    rw [h1] at hq
    injection hq with hq
    subst hq
    obtain ⟨i1, i2⟩ := initStates_zero _ h1
    have tot : ∀ (j : Nat) xs s a, x.shards[j]? = some xs → xs.readStateAt a = .ok s → s.blot < 65536 ∧ s.total.toNat = (vals j s.blot).length := by
      intro j xs s a hxs hs
      have R := hx.sh j xs hxs
      obtain ⟨hd, ct, g1, g2, g3, g4⟩ := readStateAt_posts hs
      have hlt := (List.getElem?_eq_some_iff.mp g2).1
      rw [R.lenC] at hlt
      refine ⟨hlt, ?_⟩
      have := R.counts s.blot hlt
      rw [List.getD_eq_getElem?_getD, g2] at this
      rw [g4]; exact this
    obtain ⟨xs, hxs⟩ : ∃ xs, x.shards[j]? = some xs := ⟨_, List.getElem?_eq_getElem (by rw [hx.len]; exact hj)⟩
    obtain ⟨s, s1, s2⟩ := i2 j xs hxs
    have R := hx.sh j xs hxs
    have hmax : (vals j b).length ≤ (vals j s.blot).length := by
      have hm : b ∈ xs.perm := by
        rw [R.perm, (hsrt.perm xs.counts).mem_iff, List.mem_range, R.lenC]; exact hb
      obtain ⟨i, hi⟩ := List.mem_iff_getElem?.mp hm
      have h0 := readStateAt_blot s2
      cases i with
      | zero => rw [h0] at hi; injection hi with hi; rw [hi]; exact Nat.le_refl _
      | succ i => exact perm_sorted hsrt R (Nat.succ_pos i) h0 hi
    have hpos := List.length_pos_iff.mpr hv
    have hst := (tot j xs s 0 hxs s2).2
    rcases maxLoop_spec ss 0 0 0 (by rw [i1, hx.len]; omega) with ⟨_, e⟩ | ⟨j', s', e1, e2, e3, _⟩
    · have := e s (List.mem_of_getElem? s1)
      rw [UInt32.le_iff_toNat_le] at this
      simp at this
      omega
    · obtain ⟨xs', a, f1, f2⟩ := hfr j' s' e1
      rw [Nat.zero_add] at e2
      refine ⟨s', xs', a, ?_, ?_, f2, ?_⟩
      · show ss[(QState.maxLoop ss 0 0 0).toNat]? = _
        rw [e2]; exact e1
      · show x.shards[(QState.maxLoop ss 0 0 0).toNat]? = _
        rw [e2]; exact f1
      · show vals (QState.maxLoop ss 0 0 0).toNat s'.blot ≠ []
        rw [e2]
        have := (tot j' xs' s' a f1 f2).2
        intro e
        rw [e] at this
        rw [UInt32.lt_iff_toNat_lt, this] at e3
        simp at e3

end Query
end Dupi
