import Verif.Proof.LiveNext
import Verif.Props.Live
import Verif.Props.NextLim
/-! # Extraction from an index while documents are added: C76 -/

namespace Dupi.Props
open Spec

/-- Consecutive calls of `Next`, one for each destination slice; with each slice the moments at which the files are read. -/
def nextCallsL (grow : Nat → Nat) (x : Index) (ff fuel : Nat) : QState → List ((Nat → Dir) × List Blot) → M (List Query.NextResult)
  | _, [] => .ok []
  | q, call :: calls => do
    let r ← Query.nextL grow x call.1 ff fuel q call.2
    let rs ← nextCallsL grow x ff fuel r.state calls
    return r :: rs

/-- What calls with the slices `dsts` return from an index that had the documents `old` when it was opened, while `new` are
added: the first of the blots `E`, and once these are all delivered, perhaps other blots, `X`; with each blot its
old documents and perhaps the first few of its new ones. -/
structure Overtaken (u : Uni) (c : Config) (old new : List Document) (E X : List UInt32) (dsts : List (List Blot)) (rs : List Query.NextResult) : Prop where
  lens : rs.map (fun r => r.dst.length) = dsts.map List.length
  room : ∀ r ∈ rs, r.n ≤ r.dst.length ∧ (r.eof = true ↔ r.n = 0 ∧ r.dst ≠ [])
  blots : ∃ k, (delivered rs).map Blot.blot = E.take k ++ X ∧ ((X ≠ [] ∨ ∃ r ∈ rs, r.n < r.dst.length) → E.length ≤ k)
  once : X.Nodup
  few : X.length ≤ c.numShards.toNat
  extra : ∀ b ∈ X, b.toNat < numBuckets c ∧ (found u c old b.toNat).length = 1 ∧ found u c new b.toNat ≠ []
  docs : ∀ bl ∈ delivered rs, 2 ≤ bl.vis.length ∧ ∃ k, bl.vis = (found u c old bl.blot.toNat ++ (found u c new bl.blot.toNat).take k).map Document.shown ∧
    ∀ s ∈ (found u c new bl.blot.toNat).take k, KnownPath old s.path

/-! ### The reads of an index whose files do not change -/

/-- the read states with the files of `d` in place of those they were made with -/
def _root_.Dupi.QState.over (q : QState) (d : Dir) : QState :=
  { q with shardStates := q.shardStates.mapIdx fun j s => s.map fun rs => { rs with file := d.contents (.pos j) } }

theorem maxLoop_over (f : Nat → ReadState → ReadState) (hf : ∀ j s, (f j s).total = s.total) (ss : List (Option ReadState)) :
    ∀ (k : Nat) (m p : UInt32), QState.maxLoop (ss.mapIdx fun j s => s.map (f j)) k m p = QState.maxLoop ss k m p := by
  induction ss generalizing f with
  | nil => intro k m p; rfl
  | cons s ss ih =>
    intro k m p
    rw [List.mapIdx_cons]
    have ih := ih (fun j => f (j + 1)) (fun j s => hf _ s)
    cases s with
    | none => simp only [Option.map_none, QState.maxLoop]; exact ih _ _ _
    | some s =>
      simp only [Option.map_some, QState.maxLoop, hf]
      split <;> exact ih _ _ _

theorem over_setMax (q : QState) (d : Dir) : (QState.setMax q).over d = QState.setMax (q.over d) := by
  simp only [QState.setMax, QState.over]
  rw [maxLoop_over (fun j rs => { rs with file := d.contents (.pos j) }) (fun _ _ => rfl)]

theorem over_set (q : QState) (d : Dir) (j : Nat) (s : Option ReadState) :
    QState.over { q with shardStates := q.shardStates.set j s } d =
      { q.over d with shardStates := (q.over d).shardStates.set j (s.map fun rs => { rs with file := d.contents (.pos j) }) } := by
  simp only [QState.over, List.mapIdx_set]

theorem readStateAt_over (s : ShardIndex) (f : Bytes) (a : Nat) : ({ s with file := f } : ShardIndex).readStateAt a = (s.readStateAt a).map fun rs => { rs with file := f } := by
  simp only [ShardIndex.readStateAt, ShardIndex.blotAt, bind, Except.bind]
  cases s.perm[a]? with
  | none => rfl
  | some b =>
    simp only [ShardIndex.readStateForBlotAt]
    cases s.heads[b]? <;> cases s.counts[b]? <;> rfl

theorem advance_over (y : Index) (d : Dir) (q : QState) (src : ReadState) (f : Bytes) (pos : UInt32) :
    Query.advance (Index.over y d) (q.over d) { src with file := f } pos = (Query.advance y q src pos).map fun q => q.over d := by
  have fin : ∀ o : Option ReadState, (if pos.toNat < (q.over d).shardStates.length then
      (.ok (QState.setMax { q.over d with shardStates := (q.over d).shardStates.set pos.toNat (o.map fun rs => { rs with file := d.contents (.pos pos.toNat) }) }) : M QState) else panic') =
      (if pos.toNat < q.shardStates.length then (.ok (QState.setMax { q with shardStates := q.shardStates.set pos.toNat o }) : M QState) else panic').map fun q => q.over d := by
    intro o
    have : (q.over d).shardStates.length = q.shardStates.length := by simp [QState.over]
    rw [this]
    split
    · simp only [Except.map, over_setMax, over_set]
    · rfl
  unfold Query.advance
  simp only [bind, Except.bind, pure, Except.pure]
  by_cases h1 : src.at_ = 65535
  · simp only [h1, if_true]
    exact fin none
  · by_cases h2 : src.total ≤ 1
    · simp only [h1, h2, if_true, if_false]
      exact fin none
    · simp only [h1, h2, if_false]
      simp only [Index.over, List.getElem?_mapIdx]
      cases y.shards[pos.toNat]? with
      | none => rfl
      | some xs =>
        simp only [Option.map_some, readStateAt_over]
        cases hr : xs.readStateAt (src.at_ + 1) with
        | error e => rfl
        | ok s' => exact fin (some s')

theorem fillLoopL_const (grow : Nat → Nat) (y : Index) (d : Dir) (q : QState) (pos : UInt32) (lim : Bool) (fuel : Nat) : ∀ (t : Nat) (rs : ReadState) (b : Blot),
    (Query.fillLoopL grow y (fun _ => d) q pos lim fuel t rs b).map (fun r => (r.2.1, r.2.2.over d)) =
      Query.fillLoop grow (Index.over y d) (q.over d) pos lim fuel { rs with file := d.contents (.pos pos.toNat) } b := by
  induction fuel with
  | zero => intro t rs b; rfl
  | succ n ih =>
    intro t rs b
    simp only [Query.fillLoopL, Query.fillLoop, ReadState.next, nextL_const]
    split
    · cases h : rs.posts.next (d.contents (.pos pos.toNat)) with
      | error e =>
        simp only [bind, Except.bind]
        rcases e with e | _ | _
        · cases e <;> first
            | rfl
            | (simp only [advance_over, pure, Except.pure]
               cases Query.advance y q rs pos <;> rfl)
        · rfl
        · rfl
      | ok r =>
        simp only [bind, Except.bind, pure, Except.pure]
        cases hb : b.next grow lim with
        | error e => rfl
        | ok b1 =>
          simp only []
          have : Index.docid2DocL y d r.1 = (Index.over y d).docid2Doc r.1 := rfl
          rw [this]
          cases (Index.over y d).docid2Doc r.1 with
          | error e => rfl
          | ok v => exact ih (t + 12) { rs with posts := r.2 } (b1.setLast v)
    · simp only [Except.map, over_set, Option.map_some]

theorem nextLoopL_const (grow : Nat → Nat) (y : Index) (d : Dir) (ff fuel : Nat) : ∀ (t : Nat) (q : QState) (n : Nat) (dst : List Blot),
    (Query.nextLoopL grow y (fun _ => d) ff fuel t q n dst).map (fun r => { r with state := r.state.over d }) =
      Query.nextLoop grow (Index.over y d) ff fuel (q.over d) n dst := by
  induction fuel with
  | zero => intro t q n dst; rfl
  | succ f ih =>
    intro t q n dst
    simp only [Query.nextLoopL, Query.nextLoop]
    cases dst[n]? with
    | none => rfl
    | some b =>
      have hs : (q.over d).shardStates[(q.over d).i.toNat]? = (q.shardStates[q.i.toNat]?).map fun s => s.map fun rs => { rs with file := d.contents (.pos q.i.toNat) } := by
        simp only [QState.over, List.getElem?_mapIdx]
      rw [hs]
      cases q.shardStates[q.i.toNat]? with
      | none => rfl
      | some s =>
        cases s with
        | none =>
          simp only [Option.map_some, Option.map_none]
          have hn : (q.over d).nilCount = q.nilCount ∧ (q.over d).n = q.n ∧ (q.over d).i = q.i := ⟨rfl, rfl, rfl⟩
          simp only [hn.1, hn.2.1, hn.2.2]
          split
          · rfl
          · exact ih t _ n dst
        | some src =>
          simp only [Option.map_some, bind, Except.bind]
          have hfill := fillLoopL_const grow y d q q.i b.docs.isSome ff t src { b with blot := UInt32.ofNat src.blot * q.n + q.i }
          have e : Query.fillBlot grow (Index.over y d) ff (q.over d) b { src with file := d.contents (.pos q.i.toNat) } (q.over d).i =
              Query.fillLoop grow (Index.over y d) (q.over d) q.i b.docs.isSome ff { src with file := d.contents (.pos q.i.toNat) } { b with blot := UInt32.ofNat src.blot * q.n + q.i } := rfl
          rw [e, ← hfill]
          simp only [Query.fillBlotL]
          cases Query.fillLoopL grow y (fun _ => d) q q.i b.docs.isSome ff t src { b with blot := UInt32.ofNat src.blot * q.n + q.i } with
          | error e => rfl
          | ok r =>
            have hm : ∀ v : Nat × Blot × QState, Except.map (fun r : Nat × Blot × QState => (r.2.1, r.2.2.over d)) (.ok v : M (Nat × Blot × QState)) = .ok (v.2.1, v.2.2.over d) := fun _ => rfl
            rw [hm]
            by_cases hl : r.2.1.len ≤ 1
            · simp only [if_pos hl]
              have := advance_over y d r.2.2 src (d.contents (.pos q.i.toNat)) r.2.2.i
              have e' : (QState.over r.2.2 d).i = r.2.2.i := rfl
              rw [e', this]
              cases Query.advance y r.2.2 src r.2.2.i with
              | error e => rfl
              | ok q' => exact ih _ _ _ _
            · simp only [if_neg hl]
              exact ih _ _ _ _

/-- **C76**, the model: if all reads find the same files, `Next` is `Next` on an index that holds these files (for slices of any capacity). -/
theorem C76_constant (grow : Nat → Nat) (y : Index) (d : Dir) (ff fuel : Nat) (q : QState) (dst : List Blot) :
    (Query.nextL grow y (fun _ => d) ff fuel q dst).map (fun r => { r with state := r.state.over d }) = Query.next grow (Index.over y d) ff fuel (q.over d) dst :=
  nextLoopL_const grow y d ff fuel 0 q 0 dst

/-! ### Calls -/

section
variable {srt : Sorter} (hsrt : IsSorter srt)
variable {x : Index} {n : Nat} {vals all : Nat → Nat → List UInt32} {D D' : UInt32 → Bytes × UInt32 × UInt32} (hx : Holds srt x n vals D) (hn : n < 2 ^ 32)

/-- as `LSpec`, for several calls -/
structure LCalls (n : Nat) (vals all : Nat → Nat → List UInt32) (D' : UInt32 → Bytes × UInt32 × UInt32) (good : Nat → Nat → Nat → Prop) (q : QState) (E1 E2 X : List (Nat × Nat))
    (calls : List ((Nat → Dir) × List Blot)) (rs : List Query.NextResult) : Prop where
  lens : rs.map (fun r => r.dst.length) = calls.map fun call => call.2.length
  room : ∀ r ∈ rs, r.n ≤ r.dst.length ∧ (r.eof = true ↔ r.n = 0 ∧ r.dst ≠ [])
  blots : (delivered rs).map Blot.blot = (E1 ++ X).map (blotNum n)
  rest : (X ≠ [] ∨ ∃ r ∈ rs, r.n < r.dst.length) → E2 = []
  once : (X.map Prod.fst).Nodup
  extra : ∀ jb ∈ X, jb.1 < n ∧ jb.2 < 65536 ∧ (vals jb.1 jb.2).length ≤ 1 ∧ q.shardStates[jb.1]? ≠ some none
  each : ∀ jb ∈ E1 ++ X, ∃ k, good jb.1 jb.2 k ∧ 2 ≤ (((all jb.1 jb.2).take k).map fun id => Doc.ofMeta (D' id)).length
  docs : ∀ bl ∈ delivered rs, 2 ≤ bl.vis.length ∧ ∃ jb ∈ E1 ++ X, bl.blot = blotNum n jb ∧ ∃ k, bl.vis = ((all jb.1 jb.2).take k).map (fun id => Doc.ofMeta (D' id)) ∧ good jb.1 jb.2 k

include hsrt hx hn in
theorem nextCallsL_spec (grow : Nat → Nat) {ff fuel : Nat} {good : Nat → Nat → Nat → Prop} {err pan : Prop}
    (hgood : ∀ j o k, good j o k → (vals j o).length ≤ k ∧ k ≤ (all j o).length) : ∀ (calls : List ((Nat → Dir) × List Blot)) (q : QState) (E : List (Nat × Nat)),
    (∀ call ∈ calls, Query.FillsL grow x call.1 ff all D' good err pan ∧ ∀ b ∈ call.2, b.docs = none) →
    Query.Delivers x n vals D q E → Query.Fresh x q → E.length + n + 2 ^ 32 < fuel →
    (∃ rs E1 E2 X, nextCallsL grow x ff fuel q calls = .ok rs ∧ E = E1 ++ E2 ∧ LCalls n vals all D' good q E1 E2 X calls rs) ∨
    (Errs (nextCallsL grow x ff fuel q calls) ∧ err) ∨ (nextCallsL grow x ff fuel q calls = panic' ∧ pan) := by
  intro calls
  induction calls with
  | nil =>
    intro q E _ _ _ _
    exact .inl ⟨[], [], E, [], rfl, rfl, ⟨rfl, by simp, by simp [delivered], by simp, by simp, by simp, by simp, by simp [delivered]⟩⟩
  | cons call calls ih =>
    intro q E hc hE hfr hfuel
    obtain ⟨m, dst⟩ := call
    obtain ⟨hF, hnil⟩ := hc (m, dst) (by simp)
    have hgo := Query.toGo_le q
    rcases Query.nextLoopL_delivers hsrt hx hn grow hF hgood hE 0 0 fuel dst hfr
      (fun i b _ hb => hnil b (List.mem_of_getElem? hb)) (Nat.zero_le _) (by omega) with ⟨r, E1, E2, X, e1, S⟩ | ⟨⟨e, e1⟩, he⟩ | ⟨e1, hp⟩
    · have hsp := S.split
      rcases ih r.state E2 (fun call hcall => hc call (by simp [hcall])) S.rest S.fresh (by
          have : E.length = E1.length + E2.length := by rw [hsp, List.length_append]
          omega) with ⟨rs, F1, F2, Y, k1, k2, T⟩ | ⟨⟨e, k1⟩, he⟩ | ⟨k1, hp⟩
      · refine .inl ⟨r :: rs, E1 ++ F1, F2, X ++ Y, by simp only [nextCallsL, Query.nextL, e1, bind, Except.bind, k1, pure, Except.pure], by rw [hsp, k2, List.append_assoc], ?_⟩
        have hcount := S.count
        rw [Nat.zero_add] at hcount
        have hlen := S.len
        have hroom := S.room
        have hX : X ≠ [] → F1 = [] ∧ F2 = [] := by
          intro h
          have := S.late h
          rw [k2] at this
          simpa using this
        have hcomm : (E1 ++ F1) ++ (X ++ Y) = (E1 ++ X) ++ (F1 ++ Y) := by
          by_cases h : X = []
          · subst h; simp
          · rw [(hX h).1]; simp
        have hfirst : (r.dst.take r.n).map Blot.blot = (E1 ++ X).map (blotNum n) := by
          apply List.ext_getElem?
          intro i
          rw [List.getElem?_map, List.getElem?_map]
          cases hi : (E1 ++ X)[i]? with
          | none =>
            rw [List.getElem?_eq_none_iff] at hi
            rw [List.getElem?_eq_none (by rw [List.length_take]; omega)]
            rfl
          | some jb =>
            obtain ⟨bl, k', b1, b2, _⟩ := S.new i jb.1 jb.2 hi
            have hlt : i < (E1 ++ X).length := (List.getElem?_eq_some_iff.mp hi).1
            rw [Nat.zero_add] at b1
            rw [List.getElem?_take_of_lt (by omega), b1]
            simp [b2, blotNum]
        refine ⟨?_, ?_, ?_, ?_, ?_, ?_, ?_, ?_⟩
        · simp [hlen, T.lens]
        · intro r' hr'
          rcases List.mem_cons.mp hr' with rfl | hr'
          · refine ⟨by omega, ?_⟩
            rw [S.eof]
            constructor
            · rintro ⟨h1, h2⟩
              refine ⟨h1, fun h => h2 ?_⟩
              rw [h] at hlen
              exact List.length_eq_zero_iff.mp hlen.symm
            · rintro ⟨h1, h2⟩
              refine ⟨h1, fun h => h2 ?_⟩
              rw [h] at hlen
              exact List.length_eq_zero_iff.mp hlen
          · exact T.room r' hr'
        · rw [hcomm, List.map_append, ← hfirst, ← T.blots]
          simp [delivered]
        · rintro (h | ⟨r', hr', h⟩)
          · by_cases hX0 : X = []
            · exact T.rest (.inl (by simpa [hX0] using h))
            · exact (hX hX0).2
          · rcases List.mem_cons.mp hr' with rfl | hr'
            · have := S.short (by omega)
              rw [k2] at this
              simp at this
              exact this.2
            · exact T.rest (.inr ⟨r', hr', h⟩)
        · rw [List.map_append, List.nodup_append]
          refine ⟨S.once, T.once, ?_⟩
          rintro a ha b hb rfl
          obtain ⟨jb, hjb, rfl⟩ := List.mem_map.mp ha
          obtain ⟨jb', hjb', e⟩ := List.mem_map.mp hb
          have h1 := (S.extra jb hjb).2.2.2.2
          have h2 := (T.extra jb' hjb').2.2.2
          rw [e] at h2
          exact h2 h1
        · intro jb hjb
          rcases List.mem_append.mp hjb with hjb | hjb
          · obtain ⟨a1, a2, a3, a4, _⟩ := S.extra jb hjb
            exact ⟨a1, a2, a3, a4⟩
          · obtain ⟨a1, a2, a3, a4⟩ := T.extra jb hjb
            exact ⟨a1, a2, a3, fun h => a4 (S.nones _ h)⟩
        · intro jb hjb
          rw [hcomm] at hjb
          rcases List.mem_append.mp hjb with hjb | hjb
          · obtain ⟨i, hi⟩ := List.mem_iff_getElem?.mp hjb
            obtain ⟨bl, k', _, _, b3, b4, b5⟩ := S.new i jb.1 jb.2 hi
            rw [b3] at b5
            exact ⟨k', b4, b5⟩
          · exact T.each jb hjb
        · intro bl hbl
          simp only [delivered, List.flatMap_cons] at hbl
          rcases List.mem_append.mp hbl with hbl | hbl
          · obtain ⟨i, hi, e⟩ := List.mem_iff_getElem.mp hbl
            have hi' := hi
            rw [List.length_take] at hi'
            obtain ⟨jb, hjb⟩ : ∃ jb, (E1 ++ X)[i]? = some jb := ⟨_, List.getElem?_eq_getElem (by omega)⟩
            obtain ⟨bl', k', b1, b2, b3, b4, b5⟩ := S.new i jb.1 jb.2 hjb
            rw [Nat.zero_add] at b1
            have : bl' = bl := by
              have h1 : (r.dst.take r.n)[i]? = some bl := by rw [List.getElem?_eq_getElem hi, e]
              rw [List.getElem?_take_of_lt (by omega), b1] at h1
              injection h1
            subst this
            refine ⟨b5, jb, ?_, b2, k', b3, b4⟩
            rw [hcomm]
            exact List.mem_append_left _ (List.mem_of_getElem? hjb)
          · obtain ⟨a1, jb, hjb, a2⟩ := T.docs bl hbl
            refine ⟨a1, jb, ?_, a2⟩
            rw [hcomm]
            exact List.mem_append_right _ hjb
      · exact .inr (.inl ⟨⟨e, by simp only [nextCallsL, Query.nextL, e1, bind, Except.bind, k1, fail]⟩, he⟩)
      · exact .inr (.inr ⟨by simp only [nextCallsL, Query.nextL, e1, bind, Except.bind, k1, panic'], hp⟩)
    · exact .inr (.inl ⟨⟨e, by simp only [nextCallsL, Query.nextL, e1, bind, Except.bind, fail]⟩, he⟩)
    · exact .inr (.inr ⟨by simp only [nextCallsL, Query.nextL, e1, bind, Except.bind, panic'], hp⟩)

end

/-! ### Buckets -/

/-- the number of a bucket that is not empty -/
theorem bucket_num {u : Uni} {c : Config} {docs : List Document} {j o : Nat} (hj : j < c.numShards.toNat) (ho : o < 65536) (h : bucketIds u c docs j o ≠ []) :
    (blotNum c.numShards.toNat (j, o)).toNat < numBuckets c ∧ (blotNum c.numShards.toNat (j, o)).toNat % c.numShards.toNat = j ∧
      (blotNum c.numShards.toNat (j, o)).toNat / c.numShards.toNat % 65536 = o := by
  have hs := bucket_small hj ho h
  have hnum : (blotNum c.numShards.toNat (j, o)).toNat = o * c.numShards.toNat + j := by simp only [blotNum, UInt32.toNat_ofNat']; omega
  rw [hnum]
  refine ⟨?_, ?_, ?_⟩
  · rw [numBuckets]
    have := Nat.mul_le_mul_right c.numShards.toNat (show o ≤ 65535 by omega)
    omega
  · rw [Nat.mul_add_mod_self_right, Nat.mod_eq_of_lt hj]
  · rw [Nat.mul_comm, Nat.mul_add_div (by omega), Nat.div_eq_of_lt hj, Nat.add_zero, Nat.mod_eq_of_lt ho]

theorem Seen.crashed {n : Nat} {tr : Trace} {d cd : Dir} (h : Trace.Seen n tr d cd) : Trace.Crashed n tr d cd := by
  cases h with
  | setup h => exact .setup (Cut.of_prefix h)
  | adding ha hs hi => exact .adding (Cut.of_prefix ha) (fun j hj => Cut.of_prefix (hs j hj)) hi
  | closing hi hc => exact .closing hi (Cut.of_prefix hc)
  | shards hi hs hi' => exact .shards hi (fun j hj => Cut.of_prefix (hs j hj)) hi'

/-- where the documents of a bucket may be cut off -/
def Stops (u : Uni) (c : Config) (old new : List Document) (j o k : Nat) : Prop :=
  (bucketIds u c old j o).length ≤ k ∧ k ≤ (bucketIds u c (old ++ new) j o).length ∧ (bucketIds u c old j o = [] → k = 0) ∧
    ∀ id ∈ (bucketIds u c (old ++ new) j o).take k, ∀ s, (old ++ new)[id.toNat - 1]? = some s → KnownPath old s.path

section
variable {u : Uni} {J : CfgCodec} {srt : Sorter} {c : Config} (hU : Usable J c) (hsrt : IsSorter srt)
variable {h : Sessions} {d : Dir} {x : Indexer} {cwd : Bytes} {new : List Doc} {tr : Trace} {d' : Dir} (A : Adding u J c h d x cwd new tr d')
variable {y : Index} (hy : Index.open J srt d = .ok y) {q : QState} (hq : y.startQuery = .ok q)

include hU A hy in
/-- the read states of a reader of the old index -/
theorem Adding.state {src : ReadState} {xs : ShardIndex} {a : Nat} {pos : UInt32} (h1 : y.shards[pos.toNat]? = some xs) (h2 : xs.readStateAt a = .ok src)
    (hlen : y.shards.length = c.numShards.toNat) (h3 : src.blot < 65536) : pos.toNat < c.numShards.toNat ∧
    ∃ bs bs' hd, (∀ b ∈ bs', b.WF) ∧ sizes bs' < 2 ^ 63 ∧ d (.pos pos.toNat) = some (render 0 bs) ∧ d' (.pos pos.toNat) = some (render 0 bs') ∧
      src = { src with posts := Posts.new hd } ∧ Left src.blot 0 bs (Posts.new hd) (bucketIds u c (documents h) pos.toNat src.blot) ∧
      (bucketIds u c (documents h) pos.toNat src.blot ≠ [] → Left src.blot 0 bs' (Posts.new hd) (bucketIds u c (documents h ++ added cwd new) pos.toNat src.blot)) ∧
      Chase src.blot bs bs' (Posts.new hd) (bucketIds u c (documents h ++ added cwd new) pos.toNat src.blot) (bucketIds u c (documents h) pos.toNat src.blot).length ∧
      (∀ cd, Trace.Seen c.numShards.toNat tr d cd → ∃ f, cd (.pos pos.toNat) = some f ∧ Growing bs bs' f) ∧
      ∀ ops, Miss src.blot bs (.pos pos.toNat) ops → ∃ f, onFiles (d (.pos pos.toNat)) ops = some f ∧ Covers src.blot f 0 bs := by
  have A' := A.appending hU
  have hj : pos.toNat < c.numShards.toNat := by rw [← hlen]; exact (List.getElem?_eq_some_iff.mp h1).1
  obtain ⟨bs, bs', sh, hd, ct, r1, r2, r3, r4, r5, r6, r7, r8, r9, r10, r11, r12, r13, r14⟩ := A'.reader hU hy hj h3
  rw [h1] at r2
  injection r2 with r2
  subst r2
  obtain ⟨hd', ct', s1, s2, s3, s4⟩ := Query.readStateAt_posts h2
  rw [r3] at s1
  injection s1 with s1
  subst s1
  have hi := A'.fits.ids
  have hi' := A'.fits.left.ids
  have e1 := postings_shardPosts u c pos.toNat src.blot hj h3 (documents h) (by omega)
  have e2 := postings_shardPosts u c pos.toNat src.blot hj h3 (documents h ++ added cwd new) (by omega)
  rw [e1] at r10 r11 r12
  rw [e2] at r11 r12
  refine ⟨hj, bs, bs', hd, r5, r6, r7, r8, ?_, r10, r11, r12, r13, r14⟩
  rw [← s3]

include hU A hy in
/-- a bucket that no new document is added to, also with torn writes -/
theorem Adding.fillQuiet {m : Nat → Dir} (hm : ∀ t, Trace.Crashed c.numShards.toNat tr d (m t)) (hlen : y.shards.length = c.numShards.toNat)
    (grow : Nat → Nat) {ff : Nat} (hff : 2 ^ 32 ≤ ff) {src : ReadState} {xs : ShardIndex} {a : Nat} {pos : UInt32} (h1 : y.shards[pos.toNat]? = some xs)
    (h2 : xs.readStateAt a = .ok src) (h3 : src.blot < 65536)
    (hb : bucketIds u c (documents h) pos.toNat src.blot ≠ [] → found u c (added cwd new) (blotNum c.numShards.toNat (pos.toNat, src.blot)).toNat = [])
    (q : QState) (t : Nat) (b : Blot) :
    ∃ t' b', Query.fillLoopL grow y m q pos false ff t src b = (Query.advance y q src pos).map (fun q' => (t', b', q')) ∧ b'.blot = b.blot ∧
      b'.vis = b.vis ++ (bucketIds u c (documents h) pos.toNat src.blot).map fun id => Doc.ofMeta (metaOf (documents h) id) := by
  have A' := A.appending hU
  have hids := A'.fits.left.ids
  have hn := hU.shards
  obtain ⟨hj, bs, bs', hd, _, _, _, _, hsrc, r10, _⟩ := A.state hU hy h1 h2 hlen h3
  by_cases hne : bucketIds u c (documents h) pos.toNat src.blot = []
  · rw [hne] at r10 ⊢
    have key := Query.fillLoopL_quiet (x := y) (m := m) (pos := pos) (D := metaOf (documents h)) grow q src _ ff t b r10 (by simp) (by simp) (by simp; omega)
    rw [← hsrc] at key
    exact key
  · obtain ⟨k1, k2, k3⟩ := bucket_num hj h3 hne
    have hb := hb hne
    have hfew := few (u := u) hU A'.fits.ids (blotNum c.numShards.toNat (pos.toNat, src.blot))
    rw [k2, k3, hb] at hfew
    obtain ⟨bs, ps, ws, wsc, ps', g1, g2, g3, g4, g5, g6, g7, g8, g9⟩ := A'.shard hU hj
    obtain ⟨g9, g9'⟩ := g9 _ h3
    rw [hfew] at g9 g9'
    obtain ⟨sh, ct, _, e2, e3, e4, e5⟩ := A.head hU hy (blotNum c.numShards.toNat (pos.toNat, src.blot)) (bs := bs) (ps := ps) (by rw [k2]; exact g2) (by rw [k2]; exact g3) g4
    rw [k2] at e2 e5
    rw [k3] at e3 e5
    rw [h1] at e2
    injection e2 with e2
    subst e2
    obtain ⟨hd', ct', s1, s2, s3, s4⟩ := Query.readStateAt_posts h2
    rw [e3] at s1
    injection s1 with s1
    subst s1
    rw [render_length] at g4
    have hL : Left src.blot 0 bs (Posts.new (nextOff src.blot 0 bs)) (bucketIds u c (documents h) pos.toNat src.blot) :=
      ⟨g3.wf, by omega, rfl, by simp [Posts.new], by simpa [Posts.new] using e5⟩
    have hl : (bucketIds u c (documents h) pos.toNat src.blot).length ≤ (documents h).length := idsWith_length _ _ _
    have key := Query.fillLoopL_quiet (x := y) (m := m) (pos := pos) (D := metaOf (documents h)) grow q src _ ff t b hL (fun _ t => by
        have hops : ∃ ops, m t (.pos pos.toNat) = onFiles (d (.pos pos.toNat)) ops ∧ Miss src.blot bs (.pos pos.toNat) ops := by
          rcases (A'.crashed hU (hm t)).2 _ hj with ⟨s, s1, s2⟩ | ⟨s, s1, s2⟩
          · exact ⟨s, s2, Miss.cut s1 (g9 (by simp))⟩
          · refine ⟨tr.serve _ ++ s, by rw [s2, onFiles_append], (g9 (by simp)).append (Miss.cut s1 ?_)⟩
            rw [g6, opsOn_append, (posOps_on _ _).opsOn, Off.opsOn (by
              intro op hop
              rcases List.mem_cons.mp hop with rfl | hop
              · exact nofun
              · rw [writes_on _ _ _ op hop]; exact nofun), List.append_nil]
            exact g9' rfl
        obtain ⟨ops, o1, o2⟩ := hops
        obtain ⟨f, f1, f2⟩ := Miss.covers (f := render 0 bs) ops o2 (by have := Covers.render src.blot bs [] []; simpa using this)
        rw [← g1, ← o1] at f1
        simpa [Dir.contents, f1] using f2) (fun id hid t => by
        obtain ⟨m1, m2⟩ := idsWith_mem _ (documents h) 1 (by omega) id hid
        exact A.oldDoc hU hy (A'.crashed hU (hm t)).1 (by omega) (by omega)) (by omega)
    rw [← s3] at key
    exact key

include hU A hy in
/-- what the reader finds of a bucket, whatever the moments -/
theorem Adding.fills {m : Nat → Dir} (hm : ∀ t, Trace.Seen c.numShards.toNat tr d (m t)) (hlen : y.shards.length = c.numShards.toNat) (grow : Nat → Nat) {ff : Nat} (hff : 2 ^ 32 ≤ ff) :
    Query.FillsL grow y m ff (bucketIds u c (documents h ++ added cwd new)) (metaOf (documents h ++ added cwd new)) (Stops u c (documents h) (added cwd new))
      (∃ b : UInt32, found u c (documents h) b.toNat ≠ [] ∧ found u c (added cwd new) b.toNat ≠ [])
      (∃ b : UInt32, found u c (documents h) b.toNat ≠ [] ∧ ∃ s ∈ found u c (added cwd new) b.toNat, ¬ KnownPath (documents h) s.path) := by
  intro q src xs a pos t b h1 h2 h3
  have A' := A.appending hU
  have hids := A'.fits.ids
  obtain ⟨hj, bs, bs', hd, r5, r6, r7, r8, hsrc, r10, r11, r12, r13, r14⟩ := A.state hU hy h1 h2 hlen h3
  have hl : (bucketIds u c (documents h ++ added cwd new) pos.toNat src.blot).length ≤ (documents h ++ added cwd new).length := idsWith_length _ _ _
  by_cases hne : bucketIds u c (documents h) pos.toNat src.blot = []
  · obtain ⟨t', b', k1, k2, k3⟩ := A.fillQuiet hU hy (fun t => Seen.crashed (hm t)) hlen grow hff h1 h2 h3 (fun h => absurd hne h) q t b
    rw [hne] at k3
    exact .inl ⟨t', b', 0, k1, k2, by rw [k3]; simp, by simp [Stops, hne]⟩
  · obtain ⟨k1, k2, k3⟩ := bucket_num hj h3 hne
    have hdocs := bucketIds_docs u c _ hids (blotNum c.numShards.toNat (pos.toNat, src.blot)).toNat
    have holen := bucketIds_length_found u c _ A'.fits.left.ids (blotNum c.numShards.toNat (pos.toNat, src.blot)).toNat
    rw [k2, k3] at hdocs holen
    have hold : found u c (documents h) (blotNum c.numShards.toNat (pos.toNat, src.blot)).toNat ≠ [] := by
      intro e
      rw [e] at holen
      exact hne (List.length_eq_zero_iff.mp holen)
    by_cases hnew : found u c (added cwd new) (blotNum c.numShards.toNat (pos.toNat, src.blot)).toNat = []
    · obtain ⟨t', b', g1, g2, g3⟩ := A.fillQuiet hU hy (fun t => Seen.crashed (hm t)) hlen grow hff h1 h2 h3 (fun _ => hnew) q t b
      have hm1 := bucketIds_found u c _ hids (blotNum c.numShards.toNat (pos.toNat, src.blot)).toNat
      have hm2 := bucketIds_found u c _ A'.fits.left.ids (blotNum c.numShards.toNat (pos.toNat, src.blot)).toNat
      have hnl := bucketIds_length_found u c _ hids (blotNum c.numShards.toNat (pos.toNat, src.blot)).toNat
      rw [k2, k3, found_append, hnew, List.append_nil] at hm1 hnl
      rw [k2, k3] at hm2
      refine .inl ⟨t', b', (bucketIds u c (documents h) pos.toNat src.blot).length, g1, g2, ?_, Nat.le_refl _, by omega, fun e => absurd e hne, ?_⟩
      · rw [g3, List.take_of_length_le (by omega), hm1, hm2]
      · intro id hid s hs
        have := List.mem_map_of_mem (f := fun id : UInt32 => (documents h ++ added cwd new)[id.toNat - 1]?) (List.mem_of_mem_take hid)
        rw [hdocs, hs, found_append, hnew, List.append_nil] at this
        obtain ⟨s', s1, s2⟩ := List.mem_map.mp this
        injection s2 with s2
        subst s2
        exact ⟨s', (List.mem_filter.mp s1).1, .inl rfl⟩
    rw [hsrc]
    rcases Query.fillLoopL_chase (x := y) (m := m) (pos := pos) (D := metaOf (documents h ++ added cwd new)) grow r5 r6
      (fun t => by obtain ⟨f, f1, f2⟩ := r13 _ (hm t); simpa [Dir.contents, f1] using f2)
      (K := fun id => ∀ s, (documents h ++ added cwd new)[id.toNat - 1]? = some s → KnownPath (documents h) s.path) q src ff t b r12 (fun id hid t => by
        obtain ⟨m1, m2⟩ := idsWith_mem _ (documents h ++ added cwd new) 1 (by omega) id hid
        obtain ⟨s, s1, s2, _⟩ := A.anyDoc hU hy id (by omega) (by omega)
        rcases s2 _ (hm t) with ⟨g1, g2⟩ | g | ⟨g1, g2⟩
        · refine .inl ⟨g1, fun s' hs' => ?_⟩
          rw [s1] at hs'
          injection hs' with hs'
          rw [← hs']; exact g2
        · exact .inr (.inl g)
        · exact .inr (.inr ⟨g1, fun hK => g2 (hK s s1)⟩)) (by omega) with ⟨t', b', k, g1, g2, g3, g4, g5, g6⟩ | he | ⟨hp, id, i1, i2⟩
    · exact .inl ⟨t', b', k, by rw [g1]; rfl, g4, g5, g2, g3, fun e => absurd e hne, g6⟩
    · exact .inr (.inl ⟨he, _, hold, hnew⟩)
    · refine .inr (.inr ⟨hp, _, hold, ?_⟩)
      have := List.mem_map_of_mem (f := fun id : UInt32 => (documents h ++ added cwd new)[id.toNat - 1]?) i1
      rw [hdocs] at this
      obtain ⟨s, s1, s2⟩ := List.mem_map.mp this
      have hns : ¬ KnownPath (documents h) s.path := by
        intro hk
        apply i2
        intro s' hs'
        rw [← s2] at hs'
        injection hs' with hs'
        rw [← hs']; exact hk
      rw [found_append] at s1
      rcases List.mem_append.mp s1 with s1 | s1
      · exact absurd ⟨s, (List.mem_filter.mp s1).1, .inl rfl⟩ hns
      · exact ⟨s, s1, hns⟩

include hU A in
/-- what is delivered of a bucket, as documents -/
theorem Adding.shownAt {jb : Nat × Nat} (hj : jb.1 < c.numShards.toNat) (ho : jb.2 < 65536) {k : Nat} (hk : Stops u c (documents h) (added cwd new) jb.1 jb.2 k)
    (h2 : 2 ≤ (((bucketIds u c (documents h ++ added cwd new) jb.1 jb.2).take k).map fun id => Doc.ofMeta (metaOf (documents h ++ added cwd new) id)).length) :
    (blotNum c.numShards.toNat jb).toNat < numBuckets c ∧
    (found u c (documents h) (blotNum c.numShards.toNat jb).toNat).length = (bucketIds u c (documents h) jb.1 jb.2).length ∧
    found u c (documents h) (blotNum c.numShards.toNat jb).toNat ≠ [] ∧
    ((bucketIds u c (documents h) jb.1 jb.2).length ≤ 1 → found u c (added cwd new) (blotNum c.numShards.toNat jb).toNat ≠ []) ∧
    ∃ k', ((bucketIds u c (documents h ++ added cwd new) jb.1 jb.2).take k).map (fun id => Doc.ofMeta (metaOf (documents h ++ added cwd new) id)) =
      (found u c (documents h) (blotNum c.numShards.toNat jb).toNat ++ (found u c (added cwd new) (blotNum c.numShards.toNat jb).toNat).take k').map Document.shown ∧
      ∀ s ∈ (found u c (added cwd new) (blotNum c.numShards.toNat jb).toNat).take k', KnownPath (documents h) s.path := by
  have A' := A.appending hU
  have hids := A'.fits.ids
  obtain ⟨s1, s2, s3, s4⟩ := hk
  rw [List.length_map, List.length_take] at h2
  have hne : bucketIds u c (documents h) jb.1 jb.2 ≠ [] := fun e => by have := s3 e; omega
  obtain ⟨k1, k2, k3⟩ := bucket_num hj ho hne
  have hdocs := bucketIds_docs u c _ hids (blotNum c.numShards.toNat jb).toNat
  have hmap := bucketIds_found u c _ hids (blotNum c.numShards.toNat jb).toNat
  have hlen := bucketIds_length_found u c _ hids (blotNum c.numShards.toNat jb).toNat
  have holen := bucketIds_length_found u c _ A'.fits.left.ids (blotNum c.numShards.toNat jb).toNat
  rw [k2, k3] at hdocs hmap hlen holen
  rw [found_append, List.length_append] at hlen
  refine ⟨k1, holen.symm, fun e => ?_, fun hle e => ?_, k - (found u c (documents h) (blotNum c.numShards.toNat jb).toNat).length, ?_, fun s hs => ?_⟩
  · rw [e] at holen
    exact hne (List.length_eq_zero_iff.mp holen)
  · rw [e] at hlen
    simp at hlen
    omega
  · rw [List.map_take, hmap, found_append, ← List.map_take, List.take_append, List.take_of_length_le (by omega)]
  · have hs' : s ∈ (found u c (documents h ++ added cwd new) (blotNum c.numShards.toNat jb).toNat).take k := by
      rw [found_append, List.take_append]; exact List.mem_append_right _ hs
    have : some s ∈ ((bucketIds u c (documents h ++ added cwd new) jb.1 jb.2).take k).map (fun id => (documents h ++ added cwd new)[id.toNat - 1]?) := by
      rw [List.map_take, hdocs, ← List.map_take]; exact List.mem_map_of_mem hs'
    obtain ⟨id, i1, i2⟩ := List.mem_map.mp this
    exact s4 id i1 s i2

include hU hsrt A hy hq in
/-- **C76**, what holds of it.  An index is open for reading while another process adds documents; each read of a file
happens at any moment of that session (between two writes), or after it.  Let `E` list the blots with at least two
documents when the index was opened, as in C23.  Calls of `Next` with any slices of nil `Docs` deliver the blots of `E` in order, each once,
each with its old documents and perhaps the first few of its new ones; after the last of `E`, perhaps others, at most one for each
shard, each with one old document and some new ones; and a call that does not fill its slice (or returns
`io.EOF`) does so only when all of `E` has been delivered.  Otherwise a call returns an error, but only if some new document
has a blot that an old one has; or it panics, but only if such a new document is at a path that is neither one of the old ones nor a
directory above one. -/
theorem C76_sound_partial : ∃ E : List UInt32, E.Nodup ∧ (∀ b : UInt32, b ∈ E ↔ b.toNat < numBuckets c ∧ 2 ≤ (found u c (documents h) b.toNat).length) ∧
    E.Pairwise (fun a b => (found u c (documents h) b.toNat).length ≤ (found u c (documents h) a.toNat).length) ∧
    ∀ grow ff fuel calls, (∀ call ∈ calls, (∀ t, Trace.Seen c.numShards.toNat tr d (call.1 t)) ∧ ∀ b ∈ call.2, b.docs = none) → 2 ^ 32 ≤ ff →
      E.length + c.numShards.toNat + 2 ^ 32 < fuel →
      (∃ rs X, nextCallsL grow y ff fuel q calls = .ok rs ∧ Overtaken u c (documents h) (added cwd new) E X (calls.map Prod.snd) rs) ∨
      ((∃ e, nextCallsL grow y ff fuel q calls = fail e) ∧ ∃ b : UInt32, found u c (documents h) b.toNat ≠ [] ∧ found u c (added cwd new) b.toNat ≠ []) ∨
      (nextCallsL grow y ff fuel q calls = panic' ∧
        ∃ b : UInt32, found u c (documents h) b.toNat ≠ [] ∧ ∃ s ∈ found u c (added cwd new) b.toNat, ¬ KnownPath (documents h) s.path) := by
  have A' := A.appending hU
  have hn := hU.shards
  have hn' := hU.shardsSmall
  have hr : Reading u J srt c h y q := ⟨⟨d, A.hist, hy⟩, hq⟩
  obtain ⟨h1, _⟩ := hr.rep hU hsrt A'.fits.left
  obtain ⟨E, e1, e2, e3, e4, e5⟩ := enumeration hU hsrt hr A'.fits.left
  refine ⟨_, e3, e4, e5, fun grow ff fuel calls hcalls hff hfuel => ?_⟩
  rw [List.length_map] at hfuel
  rcases nextCallsL_spec hsrt h1 (by omega) grow (fun j o k hk => ⟨hk.1, hk.2.1⟩) calls q E
    (fun call hcall => ⟨A.fills hU hy (hcalls call hcall).1 h1.len grow hff, (hcalls call hcall).2⟩) e1 (Query.startQuery_fresh hq) hfuel with
    ⟨rs, E1, E2, X, k1, k2, T⟩ | he | hp
  · refine .inl ⟨rs, X.map (blotNum c.numShards.toNat), k1, ?_⟩
    have hmem : ∀ jb ∈ E1 ++ X, jb.1 < c.numShards.toNat ∧ jb.2 < 65536 := by
      intro jb hjb
      rcases List.mem_append.mp hjb with hjb | hjb
      · obtain ⟨a1, a2, _⟩ := e2 jb (by rw [k2]; exact List.mem_append_left _ hjb)
        exact ⟨a1, a2⟩
      · obtain ⟨a1, a2, _⟩ := T.extra jb hjb
        exact ⟨a1, a2⟩
    have hnum : ∀ jb ∈ X, (blotNum c.numShards.toNat jb).toNat % c.numShards.toNat = jb.1 := by
      intro jb hjb
      obtain ⟨k, s1, s2⟩ := T.each jb (List.mem_append_right _ hjb)
      have hne : bucketIds u c (documents h) jb.1 jb.2 ≠ [] := fun e => by
        have := s1.2.2.1 e
        subst this
        simp at s2
      obtain ⟨a1, a2, _⟩ := T.extra jb hjb
      exact (bucket_num a1 a2 hne).2.1
    refine ⟨by rw [T.lens]; simp, T.room, ⟨E1.length, ?_, ?_⟩, ?_, ?_, ?_, ?_⟩
    · rw [T.blots, k2]; simp
    · rintro (h | h)
      · have := T.rest (.inl (by simpa using h))
        rw [k2, this]; simp
      · have := T.rest (.inr h)
        rw [k2, this]; simp
    · have ho := T.once
      rw [List.Nodup, List.pairwise_map] at ho ⊢
      refine List.Pairwise.imp_of_mem ?_ ho
      intro a b ha hb hne he
      apply hne
      rw [← hnum a ha, ← hnum b hb, he]
    · have := nodup_length c.numShards.toNat _ T.once (by
        intro a ha
        obtain ⟨jb, hjb, rfl⟩ := List.mem_map.mp ha
        exact (T.extra jb hjb).1)
      simpa using this
    · intro b hb
      obtain ⟨jb, hjb, rfl⟩ := List.mem_map.mp hb
      obtain ⟨k, s1, s2⟩ := T.each jb (List.mem_append_right _ hjb)
      obtain ⟨a1, a2, a3, _⟩ := T.extra jb hjb
      obtain ⟨g1, g2, g3, g4, _⟩ := A.shownAt hU a1 a2 s1 s2
      have := List.length_pos_iff.mpr g3
      exact ⟨g1, by omega, g4 a3⟩
    · intro bl hbl
      obtain ⟨a1, jb, hjb, a2, k, a3, a4⟩ := T.docs bl hbl
      refine ⟨a1, ?_⟩
      rw [a3] at a1
      obtain ⟨g1, g2, g3, g4, k', g5, g6⟩ := A.shownAt hU (hmem jb hjb).1 (hmem jb hjb).2 a4 a1
      rw [a2]
      exact ⟨k', by rw [a3, g5], g6⟩
  · exact .inr (.inl he)
  · exact .inr (.inr hp)

include hsrt in
theorem nextCallsL_exact {n : Nat} {vals : Nat → Nat → List UInt32} {D : UInt32 → Bytes × UInt32 × UInt32} (hx : Holds srt y n vals D) (hn : n < 2 ^ 32)
    {docsOf : UInt32 → List Doc} (grow : Nat → Nat) {ff fuel : Nat} : ∀ (calls : List ((Nat → Dir) × List Blot)) (q : QState) (E : List (Nat × Nat)),
    (∀ call ∈ calls, Query.FillsL grow y call.1 ff vals D (fun j o k => k = (vals j o).length) False False ∧ ∀ b ∈ call.2, b.docs = none) →
    Query.Delivers y n vals D q E → Query.Fresh y q → (∀ jb ∈ E, (vals jb.1 jb.2).map (fun id => Doc.ofMeta (D id)) = docsOf (blotNum n jb)) → E.length + n + 2 ^ 32 < fuel →
    ∃ rs, nextCallsL grow y ff fuel q calls = .ok rs ∧ Enumerates docsOf (E.map (blotNum n)) (calls.map Prod.snd) rs := by
  intro calls
  induction calls with
  | nil => intro q E _ _ _ _ _; exact ⟨[], rfl, trivial⟩
  | cons call calls ih =>
    intro q E hc hE hfr hdocs hfuel
    obtain ⟨m, dst⟩ := call
    obtain ⟨hF, hnil⟩ := hc (m, dst) (by simp)
    have hgo := Query.toGo_le q
    rcases Query.nextLoopL_delivers hsrt hx hn grow hF (fun j o k hk => ⟨by omega, by omega⟩) hE 0 0 fuel dst hfr
      (fun i b _ hb => hnil b (List.mem_of_getElem? hb)) (Nat.zero_le _) (by omega) with ⟨r, E1, E2, X, e1, S⟩ | ⟨_, he⟩ | ⟨_, hp⟩
    · have hX : X = [] := by
        cases X with
        | nil => rfl
        | cons jb X =>
          obtain ⟨bl, k', _, _, b3, b4, b5⟩ := S.new E1.length jb.1 jb.2 (by simp)
          have := (S.extra jb (by simp)).2.2.1
          rw [b3, b4] at b5
          simp at b5
          omega
      subst hX
      have hcount := S.count
      have hroom := S.room
      have hsp := S.split
      rw [List.append_nil, Nat.zero_add] at hcount
      have hshort : E1 = E.take dst.length ∧ E2 = E.drop dst.length := by
        by_cases hlt : r.n < dst.length
        · have := S.short hlt
          subst this
          rw [List.append_nil] at hsp
          rw [hsp]
          exact ⟨(List.take_of_length_le (by omega)).symm, (List.drop_of_length_le (by omega)).symm⟩
        · rw [hsp]
          have : E1.length = dst.length := by omega
          rw [← this]; simp
      obtain ⟨rs, k1, k2⟩ := ih r.state E2 (fun call hcall => hc call (by simp [hcall])) S.rest S.fresh (fun jb hjb => hdocs jb (by rw [hsp]; exact List.mem_append_right _ hjb)) (by
        have : E.length = E1.length + E2.length := by rw [hsp, List.length_append]
        omega)
      refine ⟨r :: rs, by simp only [nextCallsL, Query.nextL, e1, bind, Except.bind, k1, pure, Except.pure], ?_, ?_, S.len, ?_, ?_⟩
      · rw [hcount, hshort.1]; simp; omega
      · rw [S.eof, hcount, hshort.1]
        cases E with
        | nil => simp
        | cons a E =>
          cases dst with
          | nil => simp
          | cons b dst => simp
      · intro i b hi hb
        rw [List.getElem?_map, Option.map_eq_some_iff] at hb
        obtain ⟨jb, hjb, rfl⟩ := hb
        obtain ⟨bl, k', b1, b2, b3, b4, _⟩ := S.new i jb.1 jb.2 (by rw [List.append_nil, hshort.1, List.getElem?_take_of_lt hi]; exact hjb)
        rw [Nat.zero_add] at b1
        refine ⟨bl, b1, b2, ?_⟩
        rw [b3, b4, List.take_length]
        exact hdocs jb (List.mem_of_getElem? hjb)
      · show Enumerates _ (List.drop dst.length (E.map (blotNum n))) _ _
        rw [← List.map_drop, ← hshort.2]; exact k2
    · exact he.elim
    · exact hp.elim

include hU hsrt A hy hq in
/-- **C76**, the case in which it holds: no new document has a blot that an old document has.  The reads of the files happen at any
moments, also in the middle of a write.  Then the calls of `Next` return precisely what they would have returned (C23) when the index was opened. -/
theorem C76_quiet_partial (hb : ∀ b : UInt32, found u c (documents h) b.toNat ≠ [] → found u c (added cwd new) b.toNat = []) :
    ∃ E : List UInt32, E.Nodup ∧ (∀ b : UInt32, b ∈ E ↔ b.toNat < numBuckets c ∧ 2 ≤ (found u c (documents h) b.toNat).length) ∧
    E.Pairwise (fun a b => (found u c (documents h) b.toNat).length ≤ (found u c (documents h) a.toNat).length) ∧
    ∀ grow ff fuel calls, (∀ call ∈ calls, (∀ t, Trace.Crashed c.numShards.toNat tr d (call.1 t)) ∧ ∀ b ∈ call.2, b.docs = none) → 2 ^ 32 ≤ ff →
      E.length + c.numShards.toNat + 2 ^ 32 < fuel →
      ∃ rs, nextCallsL grow y ff fuel q calls = .ok rs ∧ Enumerates (fun b => (found u c (documents h) b.toNat).map Document.shown) E (calls.map Prod.snd) rs := by
  have A' := A.appending hU
  have hn := hU.shards
  have hn' := hU.shardsSmall
  have hr : Reading u J srt c h y q := ⟨⟨d, A.hist, hy⟩, hq⟩
  obtain ⟨h1, _⟩ := hr.rep hU hsrt A'.fits.left
  obtain ⟨E, e1, e2, e3, e4, e5⟩ := enumeration hU hsrt hr A'.fits.left
  refine ⟨_, e3, e4, e5, fun grow ff fuel calls hcalls hff hfuel => ?_⟩
  rw [List.length_map] at hfuel
  refine nextCallsL_exact hsrt h1 (by omega) grow calls q E (fun call hcall => ⟨?_, (hcalls call hcall).2⟩) e1 (Query.startQuery_fresh hq)
    (fun jb hjb => bucketIds_num A'.fits.left.ids (e2 jb hjb).1 (e2 jb hjb).2.1 (e2 jb hjb).2.2) hfuel
  intro q src xs a pos t b g1 g2 g3
  have hj : pos.toNat < c.numShards.toNat := by rw [← h1.len]; exact (List.getElem?_eq_some_iff.mp g1).1
  obtain ⟨t', b', k1, k2, k3⟩ := A.fillQuiet hU hy (hcalls call hcall).1 h1.len grow hff g1 g2 g3 (fun hne => hb _ (by
    obtain ⟨_, m2, m3⟩ := bucket_num hj g3 hne
    have := bucketIds_length_found u c _ A'.fits.left.ids (blotNum c.numShards.toNat (pos.toNat, src.blot)).toNat
    rw [m2, m3] at this
    intro e
    rw [e] at this
    exact hne (List.length_eq_zero_iff.mp this))) q t b
  exact .inl ⟨t', b', _, k1, k2, by rw [k3, List.take_length], rfl⟩

include hU A hy in
/-- what the reader finds of a bucket after the session, if the new documents with the same blots are at known paths -/
theorem Adding.fillAfter (hk : ∀ b : UInt32, found u c (documents h) b.toNat ≠ [] → ∀ s ∈ found u c (added cwd new) b.toNat, KnownPath (documents h) s.path)
    (hlen : y.shards.length = c.numShards.toNat) (grow : Nat → Nat) {ff : Nat} (hff : 2 ^ 32 ≤ ff) {src : ReadState} {xs : ShardIndex} {a : Nat} {pos : UInt32}
    (h1 : y.shards[pos.toNat]? = some xs) (h2 : xs.readStateAt a = .ok src) (h3 : src.blot < 65536) (hne : bucketIds u c (documents h) pos.toNat src.blot ≠ [])
    (q : QState) (t : Nat) (b : Blot) :
    ∃ t' b', Query.fillLoopL grow y (fun _ => d') q pos false ff t src b = (Query.advance y q src pos).map (fun q' => (t', b', q')) ∧ b'.blot = b.blot ∧
      b'.vis = b.vis ++ (found u c (documents h) (blotNum c.numShards.toNat (pos.toNat, src.blot)).toNat ++
        found u c (added cwd new) (blotNum c.numShards.toNat (pos.toNat, src.blot)).toNat).map Document.shown := by
  have A' := A.appending hU
  have hids := A'.fits.ids
  obtain ⟨hj, bs, bs', hd, r5, r6, r7, r8, hsrc, r10, r11, r12, r13, r14⟩ := A.state hU hy h1 h2 hlen h3
  obtain ⟨k1, k2, k3⟩ := bucket_num hj h3 hne
  have hdocs := bucketIds_docs u c _ hids (blotNum c.numShards.toNat (pos.toNat, src.blot)).toNat
  have hmap := bucketIds_found u c _ hids (blotNum c.numShards.toNat (pos.toNat, src.blot)).toNat
  have holen := bucketIds_length_found u c _ A'.fits.left.ids (blotNum c.numShards.toNat (pos.toNat, src.blot)).toNat
  rw [k2, k3] at hdocs hmap holen
  have hl : (bucketIds u c (documents h ++ added cwd new) pos.toNat src.blot).length ≤ (documents h ++ added cwd new).length := idsWith_length _ _ _
  have key := Query.fillLoopL_quiet (x := y) (m := fun _ => d') (pos := pos) (D := metaOf (documents h ++ added cwd new)) grow q src _ ff t b (r11 hne) (fun _ _ => by
      have := Covers.render src.blot bs' [] []
      simpa [Dir.contents, r8] using this) (fun id hid _ => by
      obtain ⟨m1, m2⟩ := idsWith_mem _ (documents h ++ added cwd new) 1 (by omega) id hid
      obtain ⟨s, s1, _, s2⟩ := A.anyDoc hU hy id (by omega) (by omega)
      rcases s2 with ⟨g1, _⟩ | ⟨_, g2⟩
      · exact g1
      · exfalso
        have := List.mem_map_of_mem (f := fun id : UInt32 => (documents h ++ added cwd new)[id.toNat - 1]?) hid
        rw [hdocs, s1] at this
        obtain ⟨s', i1, i2⟩ := List.mem_map.mp this
        injection i2 with i2
        subst i2
        rw [found_append] at i1
        rcases List.mem_append.mp i1 with i1 | i1
        · exact g2 ⟨s', (List.mem_filter.mp i1).1, .inl rfl⟩
        · exact g2 (hk _ (fun e => by rw [e] at holen; exact hne (List.length_eq_zero_iff.mp holen)) s' i1)) (by omega)
  rw [← hsrc, hmap, found_append] at key
  exact key

include hU hsrt A hy hq in
/-- **C76 is false of the code.**  When the index was opened, no blot had two documents, but some had one; each of these
is also a blot of a new document, and these are at known paths.  On the index as it was when it was opened, the first
call of `Next` returns `io.EOF`; after the session it returns a blot, with one old document and the new ones. -/
theorem C76_false_extra (hone : ∀ b : UInt32, b.toNat < numBuckets c → (found u c (documents h) b.toNat).length ≤ 1) {b : UInt32} (hb : found u c (documents h) b.toNat ≠ [])
    (hk : ∀ b : UInt32, found u c (documents h) b.toNat ≠ [] → found u c (added cwd new) b.toNat ≠ [] ∧ ∀ s ∈ found u c (added cwd new) b.toNat, KnownPath (documents h) s.path)
    (b0 : UInt32) (grow : Nat → Nat) {ff fuel : Nat} (hff : 2 ^ 32 ≤ ff) (hfuel : c.numShards.toNat + 2 ^ 32 < fuel) :
    (∃ r, Query.next grow y ff fuel q [⟨b0, none⟩] = .ok r ∧ r.n = 0 ∧ r.eof = true) ∧
    ∃ r bl, Query.nextL grow y (fun _ => d') ff fuel q [⟨b0, none⟩] = .ok r ∧ r.n = 1 ∧ r.dst = [bl] ∧ (found u c (documents h) bl.blot.toNat).length = 1 ∧
      bl.vis = (found u c (documents h) bl.blot.toNat ++ found u c (added cwd new) bl.blot.toNat).map Document.shown ∧ 2 ≤ bl.vis.length := by
  have A' := A.appending hU
  have hn := hU.shards
  have hn' := hU.shardsSmall
  have hr : Reading u J srt c h y q := ⟨⟨d, A.hist, hy⟩, hq⟩
  obtain ⟨h1, _, _, hqn, _⟩ := hr.rep hU hsrt A'.fits.left
  obtain ⟨E, e1, e2, e3, e4, e5⟩ := enumeration hU hsrt hr A'.fits.left
  have hE : E = [] := by
    cases E with
    | nil => rfl
    | cons jb E =>
      obtain ⟨g1, g2⟩ := (e4 (blotNum c.numShards.toNat jb)).mp (by simp)
      have := hone _ g1
      omega
  subst hE
  constructor
  · obtain ⟨rs, k1, k2⟩ := nextCalls_spec hU hsrt h1 A'.fits.left grow ff fuel hff [[⟨b0, none⟩]] q [] e1 e2 (by simp) (by simpa using hfuel)
    cases hnx : Query.next grow y ff fuel q [⟨b0, none⟩] with
    | error e => simp [nextCalls, hnx, bind, Except.bind] at k1
    | ok r =>
      simp only [nextCalls, hnx, bind, Except.bind, pure, Except.pure, Except.ok.injEq] at k1
      subst k1
      obtain ⟨m1, m2, _⟩ := k2
      exact ⟨r, rfl, by simpa using m1, m2.mpr ⟨rfl, by simp⟩⟩
  · have holen := bucketIds_length_found u c _ A'.fits.left.ids b.toNat
    obtain ⟨src, xs, a, s1, s2, s3, s4⟩ := Query.start_max hsrt h1 (by omega) hq (Nat.mod_lt b.toNat (by omega)) (Nat.mod_lt (b.toNat / c.numShards.toNat) (by decide)) (by
      intro e
      rw [e] at holen
      exact hb (List.length_eq_zero_iff.mp holen.symm))
    cases e1 with
    | done hinv =>
      obtain ⟨g1, g2, q1, q2, g3, _⟩ := Query.exh_adv hsrt h1 (by omega) hinv s1
      have hi := hinv.i
      obtain ⟨k1, k2, k3⟩ := bucket_num hi g1 s4
      have hol := bucketIds_length_found u c _ A'.fits.left.ids (blotNum c.numShards.toNat (q.i.toNat, src.blot)).toNat
      rw [k2, k3] at hol
      have hpos := List.length_pos_iff.mpr s4
      have hnew := (hk (blotNum c.numShards.toNat (q.i.toNat, src.blot)) (fun e => by rw [e] at hol; simp at hol; exact s4 hol)).1
      have hnpos := List.length_pos_iff.mpr hnew
      obtain ⟨t', b', f1, f2, f3⟩ := A.fillAfter hU hy (fun b hb => (hk b hb).2) h1.len grow hff s2 s3 g1 s4 q 0 ⟨UInt32.ofNat src.blot * q.n + q.i, none⟩
      have hbn : UInt32.ofNat src.blot * q.n + q.i = blotNum c.numShards.toNat (q.i.toNat, src.blot) := by
        apply UInt32.toNat_inj.mp
        simp only [blotNum, hqn, UInt32.toNat_add, UInt32.toNat_mul, UInt32.toNat_ofNat']
        simp only [Nat.mul_mod_mod, Nat.mod_mul_mod, Nat.mod_add_mod]
      have hv : b'.vis = (found u c (documents h) b'.blot.toNat ++ found u c (added cwd new) b'.blot.toNat).map Document.shown := by
        rw [f3, f2, hbn]; simp [Blot.vis]
      replace f2 : b'.blot = blotNum c.numShards.toNat (q.i.toNat, src.blot) := by rw [f2, ← hbn]
      have hlen : 2 ≤ b'.vis.length := by
        rw [hv, f2, List.length_map, List.length_append]; omega
      refine ⟨⟨1, false, [b'], q1⟩, b', ?_, rfl, rfl, by rw [f2]; omega, hv, hlen⟩
      obtain ⟨f, rfl⟩ : ∃ f, fuel = f + 2 := ⟨fuel - 2, by omega⟩
      have hl : ¬ b'.len ≤ 1 := by rw [Query.vis_len]; omega
      simp only [Query.nextL, Query.nextLoopL, List.getElem?_cons_zero, s1, Query.fillBlotL, Option.isSome_none, f1, g3, Except.map, bind, Except.bind, if_neg hl]
      rfl

end
/-! ### Such sessions exist -/

/-- **C76**: an index with one document is opened for reading; the same text is added again at the same path.  No blot had two
documents when the index was opened, and `Next` would have returned `io.EOF`; after the session it returns both documents. -/
theorem C76_nonvacuous : ∃ (d : Dir) (y : Index) (q : QState) (x : Indexer) (tr : Trace) (d' : Dir),
    Adding asciiUni ⟨fun _ => [], fun _ => .ok exQConfig⟩ exQConfig exLHistory d x [47] (exLNew [112]) tr d' ∧
    Index.open ⟨fun _ => [], fun _ => .ok exQConfig⟩ mergeSorter d = .ok y ∧ y.startQuery = .ok q ∧
    (∃ r, Query.next (fun _ => 0) y (2 ^ 32) (2 ^ 33) q [⟨0, none⟩] = .ok r ∧ r.n = 0 ∧ r.eof = true) ∧
    ∃ r bl, Query.nextL (fun _ => 0) y (fun _ => d') (2 ^ 32) (2 ^ 33) q [⟨0, none⟩] = .ok r ∧ r.n = 1 ∧ r.dst = [bl] ∧
      bl.vis = [⟨[47, 112], 0, 6, none⟩, ⟨[47, 112], 7, 13, none⟩] := by
  have f0 : Fits asciiUni exQConfig (documents exLHistory) := (exL_fits (.inl rfl)).left
  obtain ⟨d, hd⟩ := History.exists (u := asciiUni) exUsable [47] [⟨[112], 0, 6, some [97, 32, 98, 32, 99, 46]⟩] [] f0
  obtain ⟨y, q, hy, hr⟩ := reading_exists exUsable mergeSorter_isSorter hd f0
  have hq := hr.start
  obtain ⟨x1, tr1, d1, a1⟩ := C31_nonvacuous exUsable (h := exLHistory) hd [47] (exLNew [112]) (exL_fits (.inl rfl))
  obtain ⟨b, hb⟩ : ∃ b, b = fnv32 [99] ^^^ fnv32 [98] := ⟨_, rfl⟩
  have e0 : found asciiUni exQConfig (documents exLHistory) b.toNat = documents exLHistory := by rw [hb]; decide +kernel
  have hne : found asciiUni exQConfig (documents exLHistory) b.toNat ≠ [] := by rw [e0]; decide +kernel
  have hd1 : documents exLHistory = [⟨[47, 112], 0, 6, [97, 32, 98, 32, 99, 46]⟩] := by decide +kernel
  have hd2 : added [47] (exLNew [112]) = [⟨[47, 112], 7, 13, [97, 32, 98, 32, 99, 46]⟩] := by decide +kernel
  have hcases : ∀ b : Nat, (found asciiUni exQConfig (documents exLHistory) b = [] ∨ found asciiUni exQConfig (documents exLHistory) b = documents exLHistory ∧
      found asciiUni exQConfig (added [47] (exLNew [112])) b = added [47] (exLNew [112])) := by
    intro b
    rw [hd1, hd2]
    unfold found
    by_cases hh : hasBlot asciiUni exQConfig [97, 32, 98, 32, 99, 46] b = true
    · right; simp [hh]
    · left; simp [hh]
  obtain ⟨k1, r, bl, r1, r2, r3, r4, r5, r6⟩ := C76_false_extra exUsable mergeSorter_isSorter a1 hy hq (fun b _ => by
      rcases hcases b.toNat with e | ⟨e, _⟩
      · rw [e]; simp
      · rw [e, hd1]; simp) (b := b) hne (fun b hb => by
      rcases hcases b.toNat with e | ⟨_, e⟩
      · exact absurd e hb
      · rw [e, hd2]
        refine ⟨by simp, fun s hs => ⟨⟨[47, 112], 0, 6, [97, 32, 98, 32, 99, 46]⟩, by rw [hd1]; simp, .inl ?_⟩⟩
        rw [List.mem_singleton.mp hs]) 0 (fun _ => 0) (ff := 2 ^ 32) (fuel := 2 ^ 33) (Nat.le_refl _) (by decide +kernel)
  refine ⟨d, y, q, x1, tr1, d1, a1, hy, hq, k1, r, bl, r1, r2, r3, ?_⟩
  rcases hcases bl.blot.toNat with e | ⟨e, e'⟩
  · rw [e] at r4; simp at r4
  · rw [r5, e, e', hd1, hd2]; rfl

end Dupi.Props
