import Verif.Model.Query
import Verif.Spec.Damage
/-! # Files that were cut short: every read gives what it gave, or an error -/

namespace Dupi
open Spec

/-! ## Readers -/

/-- a read from what is left of `r.take k`, compared with one from `r` -/
def CutRead {α : Type} (m m' : M (α × Bytes)) : Prop :=
  (∃ e, m' = fail e) ∨ (∃ v r k, m = .ok (v, r) ∧ m' = .ok (v, r.take k)) ∨ (∃ f, m = .error f ∧ m' = .error f)

theorem readUvarintLoop_cut (r : Bytes) : ∀ (k i x : Nat), CutRead (readUvarintLoop r i x) (readUvarintLoop (r.take k) i x) := by
  induction r with
  | nil =>
    intro k i x
    rw [List.take_nil]
    unfold readUvarintLoop
    by_cases h : i = maxVarintLen64
    · rw [if_pos h]; exact .inl ⟨_, rfl⟩
    · rw [if_neg h]; exact .inl ⟨_, rfl⟩
  | cons b r ih =>
    intro k i x
    by_cases h : i = maxVarintLen64
    · unfold readUvarintLoop
      rw [if_pos h, if_pos h]; exact .inl ⟨_, rfl⟩
    · cases k with
      | zero =>
        refine .inl ⟨.eof, ?_⟩
        rw [List.take_zero]
        unfold readUvarintLoop
        rw [if_neg h]
      | succ k =>
        rw [List.take_succ_cons]
        unfold readUvarintLoop
        rw [if_neg h, if_neg h]
        simp only []
        by_cases hb : b < 0x80
        · rw [if_pos hb, if_pos hb]
          by_cases hc : i = maxVarintLen64 - 1 ∧ b > 1
          · rw [if_pos hc, if_pos hc]; exact .inl ⟨_, rfl⟩
          · rw [if_neg hc, if_neg hc]; exact .inr (.inl ⟨_, _, k, rfl, rfl⟩)
        · rw [if_neg hb, if_neg hb]
          exact ih k _ _

theorem readUvarint_cut (r : Bytes) (k : Nat) : CutRead (readUvarint r) (readUvarint (r.take k)) := readUvarintLoop_cut r k 0 0

theorem CutRead.bind {α β : Type} {m m' : M (α × Bytes)} {g : α × Bytes → M (β × Bytes)} (h : CutRead m m')
    (hg : ∀ v r k, CutRead (g (v, r)) (g (v, r.take k))) : CutRead (m >>= g) (m' >>= g) := by
  rcases h with ⟨e, rfl⟩ | ⟨v, r, k, rfl, rfl⟩ | ⟨f, rfl, rfl⟩
  · exact .inl ⟨e, rfl⟩
  · exact hg v r k
  · exact .inr (.inr ⟨f, rfl, rfl⟩)

theorem readVarint_cut (r : Bytes) (k : Nat) : CutRead (readVarint r) (readVarint (r.take k)) := by
  unfold readVarint
  exact (readUvarint_cut r k).bind fun v r k => .inr (.inl ⟨_, _, k, rfl, rfl⟩)

theorem readFull_cut (r : Bytes) (k n : Nat) : CutRead (readFull r n) (readFull (r.take k) n) := by
  unfold readFull
  by_cases h : n ≤ (r.take k).length
  · have h' : n ≤ r.length := by rw [List.length_take] at h; omega
    rw [if_pos h, if_pos h']
    refine .inr (.inl ⟨_, _, k - n, rfl, ?_⟩)
    rw [List.length_take] at h
    rw [List.take_take, List.drop_take, Nat.min_eq_left (by omega)]
  · rw [if_neg h]
    by_cases h2 : r.take k = []
    · rw [if_pos h2]; exact .inl ⟨_, rfl⟩
    · rw [if_neg h2]; exact .inl ⟨_, rfl⟩

/-- the same result, or an error -/
def OrErr {α : Type} (m m' : M α) : Prop := m' = m ∨ ∃ e, m' = fail e

theorem OrErr.bind {α β : Type} {m m' : M α} {g g' : α → M β} (h : OrErr m m') (hg : ∀ v, m = .ok v → OrErr (g v) (g' v)) :
    OrErr (m >>= g) (m' >>= g') := by
  rcases h with rfl | ⟨e, rfl⟩
  · cases m' with
    | error f => exact .inl rfl
    | ok v => exact hg v rfl
  · exact .inr ⟨e, rfl⟩

/-! ## The table of paths -/

theorem readUvarint32_cut (r : Bytes) (k : Nat) : CutRead (Fnames.readUvarint32 r) (Fnames.readUvarint32 (r.take k)) := by
  unfold Fnames.readUvarint32
  refine (readUvarint_cut r k).bind fun v r k => ?_
  simp only []
  by_cases h : v % 2 ^ 32 ≠ v
  · rw [if_pos h, if_pos h]; exact .inl ⟨_, rfl⟩
  · rw [if_neg h, if_neg h]; exact .inr (.inl ⟨_, _, k, rfl, rfl⟩)

theorem readLoop_cut (n : Nat) : ∀ (i : Nat) (d : Fnames.Table) (r : Bytes) (k : Nat),
    CutRead (Fnames.readLoop n i d r) (Fnames.readLoop n i d (r.take k)) := by
  induction n with
  | zero => intro i d r k; exact .inr (.inl ⟨_, _, k, rfl, rfl⟩)
  | succ n ih =>
    intro i d r k
    unfold Fnames.readLoop
    refine (readUvarint32_cut r k).bind fun v r k => ?_
    refine (readFull_cut r k v.toNat).bind fun name r k => ?_
    refine (readUvarint32_cut r k).bind fun parent r k => ?_
    simp only []
    cases h : (d.set i { d.getD i Fnames.zero with name := name, parent := parent })[parent.toNat]? with
    | none => exact .inr (.inr ⟨_, rfl, rfl⟩)
    | some pn => exact ih _ _ r k

theorem fnames_cut (r : Bytes) (k : Nat) : OrErr (Fnames.read r) (Fnames.read (r.take k)) := by
  unfold Fnames.read
  rcases readUvarint32_cut r k with ⟨e, h⟩ | ⟨v, r', k', h1, h2⟩ | ⟨f, h1, h2⟩
  · rw [h]; exact .inr ⟨e, rfl⟩
  · rw [h1, h2]
    simp only [bind, Except.bind]
    rcases readLoop_cut v.toNat 0 (List.replicate v.toNat Fnames.zero) r' k' with ⟨e, h⟩ | ⟨w, r'', k'', g1, g2⟩ | ⟨f, g1, g2⟩
    · rw [h]; exact .inr ⟨e, rfl⟩
    · rw [g1, g2]; exact .inl rfl
    · rw [g1, g2]; exact .inl rfl
  · rw [h1, h2]; exact .inl rfl

/-! ## The heads of a shard -/

theorem readIix_cut (n : Nat) : ∀ (r : Bytes) (k : Nat), OrErr (ShardIndex.readIix n r) (ShardIndex.readIix n (r.take k)) := by
  induction n with
  | zero => intro r k; exact .inl rfl
  | succ n ih =>
    intro r k
    unfold ShardIndex.readIix
    simp only [bind, Except.bind]
    rcases readVarint_cut r k with ⟨e, h⟩ | ⟨hd, r1, k1, h1, h2⟩ | ⟨f, h1, h2⟩
    · rw [h]; exact .inr ⟨e, rfl⟩
    · rw [h1, h2]
      simp only []
      rcases readVarint_cut r1 k1 with ⟨e, h⟩ | ⟨ct, r2, k2, h3, h4⟩ | ⟨f, h3, h4⟩
      · rw [h]; exact .inr ⟨e, rfl⟩
      · rw [h3, h4]
        simp only []
        by_cases hc : ct < 0 ∨ 2 ^ 32 ≤ ct
        · rw [if_pos hc, if_pos hc]; exact .inl rfl
        · rw [if_neg hc, if_neg hc]
          rcases readFull_cut r2 k2 4 with ⟨e, h⟩ | ⟨w, r3, k3, h5, h6⟩ | ⟨f, h5, h6⟩
          · rw [h]; exact .inr ⟨e, rfl⟩
          · rw [h5, h6]
            simp only []
            rcases ih r3 k3 with h | ⟨e, h⟩
            · rw [h]; exact .inl rfl
            · rw [h]; exact .inr ⟨e, rfl⟩
          · rw [h5, h6]; exact .inl rfl
      · rw [h3, h4]; exact .inl rfl
    · rw [h1, h2]; exact .inl rfl

/-! ## Posting lists -/

theorem readAt_cut (f : Bytes) (k : Nat) (off : Int) (n : Nat) : readAt (f.take k) off n = readAt f off n ∨ readAt (f.take k) off n = fail .eof := by
  unfold readAt
  by_cases h : off < 0
  · rw [if_pos h, if_pos h]; exact .inl rfl
  · rw [if_neg h, if_neg h]
    by_cases hn : n = 0
    · rw [if_pos hn, if_pos hn]; exact .inl rfl
    · rw [if_neg hn, if_neg hn]
      by_cases hl : off.toNat + n ≤ (f.take k).length
      · have hl' : off.toNat + n ≤ f.length := by rw [List.length_take] at hl; omega
        rw [if_pos hl, if_pos hl']
        rw [List.length_take] at hl
        left
        rw [List.drop_take, List.take_take, Nat.min_eq_left (by omega)]
      · rw [if_neg hl]; exact .inr rfl

theorem readVarintAtLoop_cut (f : Bytes) (k : Nat) (p : Int) (fuel : Nat) : ∀ acc, readVarintAtLoop (f.take k) p fuel acc = readVarintAtLoop f p fuel acc ∨
    readVarintAtLoop (f.take k) p fuel acc = fail .eof := by
  induction fuel with
  | zero => intro acc; exact .inl rfl
  | succ n ih =>
    intro acc
    unfold readVarintAtLoop
    simp only [bind, Except.bind]
    rcases readAt_cut f k (p + acc.length) 1 with h | h
    · rw [h]
      cases readAt f (p + acc.length) 1 with
      | error e => exact .inl rfl
      | ok b =>
        simp only []
        by_cases hb : b.all (· < 0x80) = true
        · rw [if_pos hb, if_pos hb]; exact .inl rfl
        · rw [if_neg hb, if_neg hb]; exact ih _
    · rw [h]; exact .inr rfl

theorem readVarintAt_cut (f : Bytes) (k : Nat) (p : Int) : readVarintAt (f.take k) p = readVarintAt f p ∨ readVarintAt (f.take k) p = fail .eof := by
  unfold readVarintAt
  simp only [bind, Except.bind]
  rcases readVarintAtLoop_cut f k p maxVarintLen64 [] with h | h
  · rw [h]; exact .inl rfl
  · rw [h]; exact .inr rfl

theorem readNext_cut (f : Bytes) (k : Nat) (p : Posts) : p.readNext (f.take k) = p.readNext f ∨ ∃ s, p.readNext (f.take k) = fail (.wrap s .eof) := by
  unfold Posts.readNext
  simp only [bind, Except.bind]
  rcases readVarintAt_cut f k p.nextpos with h | h
  · rw [h]
    cases readVarintAt f p.nextpos with
    | error e =>
      left
      cases e <;> rfl
    | ok r =>
      obtain ⟨v, n⟩ := r
      simp only [Posts.wrapErr]
      by_cases hv : v < 0 ∨ (Posts.bufLen : Int) < v
      · rw [if_pos hv, if_pos hv]; exact .inl rfl
      · rw [if_neg hv, if_neg hv]
        rcases readAt_cut f k (p.nextpos + n) v.toNat with h' | h'
        · rw [h']; exact .inl rfl
        · rw [h']; exact .inr ⟨_, rfl⟩
  · rw [h]; exact .inr ⟨_, rfl⟩

theorem posts_next_cut (f : Bytes) (k : Nat) (p : Posts) : p.next (f.take k) = p.next f ∨ ∃ s, p.next (f.take k) = fail (.wrap s .eof) := by
  unfold Posts.next
  simp only [bind, Except.bind]
  by_cases h : p.i = p.docids.length
  · rw [if_pos h, if_pos h]
    by_cases h2 : p.nextpos = -1
    · rw [if_pos h2, if_pos h2]; exact .inl rfl
    · rw [if_neg h2, if_neg h2]
      rcases readNext_cut f k p with h' | ⟨s, h'⟩
      · rw [h']; exact .inl rfl
      · rw [h']; exact .inr ⟨s, rfl⟩
  · rw [if_neg h, if_neg h]; exact .inl rfl

/-! ## Queries -/

def ReadState.cut (k : Nat) (s : ReadState) : ReadState := { s with file := s.file.take k }

def ShardIndex.cut (k : Nat) (s : ShardIndex) : ShardIndex := { s with file := s.file.take k }

/-- the index, with shorter files -/
def Index.cut (ks : Nat → Nat) (kd : Nat) (x : Index) : Index :=
  { x with dmd := x.dmd.take kd, shards := x.shards.mapIdx fun i s => s.cut (ks i) }

def QState.cut (ks : Nat → Nat) (q : QState) : QState :=
  { q with shardStates := q.shardStates.mapIdx fun i s => s.map (ReadState.cut (ks i)) }

def Query.NextResult.cut (ks : Nat → Nat) (r : Query.NextResult) : Query.NextResult := { r with state := r.state.cut ks }

theorem rs_next_cut (k : Nat) (s : ReadState) : (s.cut k).next = s.next.map (fun r => (r.1, r.2.cut k)) ∨ ∃ t, (s.cut k).next = fail (.wrap t .eof) := by
  unfold ReadState.next ReadState.cut
  simp only [bind, Except.bind]
  rcases posts_next_cut s.file k s.posts with h | ⟨t, h⟩
  · rw [h]
    left
    cases s.posts.next s.file <;> rfl
  · rw [h]; exact .inr ⟨t, rfl⟩

theorem dmd_lookup_cut (f : Bytes) (k : Nat) (did : UInt32) : OrErr (Dmd.lookup f did) (Dmd.lookup (f.take k) did) := by
  unfold Dmd.lookup
  simp only [bind, Except.bind]
  rw [List.drop_take]
  rcases readFull_cut (f.drop (did.toNat * Dmd.rcdSize)) (k - did.toNat * Dmd.rcdSize) Dmd.rcdSize with ⟨e, h⟩ | ⟨v, r, k', h1, h2⟩ | ⟨e, h1, h2⟩
  · rw [h]; exact .inr ⟨e, rfl⟩
  · rw [h1, h2]; exact .inl rfl
  · rw [h1, h2]; exact .inl rfl

theorem docid2Doc_cut (x : Index) (ks : Nat → Nat) (kd : Nat) (did : UInt32) : OrErr (x.docid2Doc did) ((x.cut ks kd).docid2Doc did) := by
  unfold Index.docid2Doc
  rcases dmd_lookup_cut x.dmd kd did with h | ⟨e, h⟩
  · left
    show (match Dmd.lookup (x.dmd.take kd) did with | .error (.err e) => _ | .error f => _ | .ok r => _) = _
    rw [h]
    rfl
  · right
    have h' : Dmd.lookup (x.cut ks kd).dmd did = fail e := h
    rw [h']
    exact ⟨_, rfl⟩

theorem getLoop_cut (grow : Nat → Nat) (x : Index) (ks : Nat → Nat) (kd k : Nat) (lim : Bool) (fuel : Nat) : ∀ (rs : ReadState) (b : Blot),
    OrErr (Query.getLoop grow x lim fuel rs b) (Query.getLoop grow (x.cut ks kd) lim fuel (rs.cut k) b) := by
  induction fuel with
  | zero => intro rs b; exact .inl rfl
  | succ fuel ih =>
    intro rs b
    unfold Query.getLoop
    by_cases hl : (lim && b.len == b.cap) = true
    · rw [if_pos hl, if_pos hl]; exact .inl rfl
    · rw [if_neg hl, if_neg hl]
      rcases rs_next_cut k rs with h | ⟨t, h⟩
      · rw [h]
        cases rs.next with
        | error f =>
          left
          cases f with
          | err e => cases e <;> rfl
          | panic => rfl
          | diverge => rfl
        | ok r =>
          obtain ⟨did, rs'⟩ := r
          simp only [Except.map, bind, Except.bind]
          cases b.next grow lim with
          | error f => exact .inl rfl
          | ok b' =>
            simp only []
            rcases docid2Doc_cut x ks kd did with g | ⟨e, g⟩
            · rw [g]
              cases x.docid2Doc did with
              | error f => cases f <;> exact .inl rfl
              | ok r => exact ih _ _
            · rw [g]; exact .inr ⟨_, rfl⟩
      · rw [h]; exact .inr ⟨_, rfl⟩

theorem cut_shard (x : Index) (ks : Nat → Nat) (kd i : Nat) : (x.cut ks kd).shards[i]? = (x.shards[i]?).map (ShardIndex.cut (ks i)) := by
  simp only [Index.cut, List.getElem?_mapIdx]

theorem readState_cut (s : ShardIndex) (k blot at_ : Nat) : (s.cut k).readStateForBlotAt blot at_ = (s.readStateForBlotAt blot at_).map (ReadState.cut k) := by
  unfold ShardIndex.readStateForBlotAt
  show (match s.heads[blot]?, s.counts[blot]? with | some h, some c => _ | _, _ => _) = _
  cases s.heads[blot]? <;> cases s.counts[blot]? <;> rfl

theorem readStateAt_cut (s : ShardIndex) (k i : Nat) : (s.cut k).readStateAt i = (s.readStateAt i).map (ReadState.cut k) := by
  unfold ShardIndex.readStateAt
  have : (s.cut k).blotAt i = s.blotAt i := rfl
  rw [this]
  simp only [bind, Except.bind]
  cases s.blotAt i with
  | error e => rfl
  | ok b => exact readState_cut s k b i

theorem get_cut (grow : Nat → Nat) (x : Index) (ks : Nat → Nat) (kd fuel : Nat) (q q' : QState) (hq : q'.n = q.n) (b : Blot) :
    OrErr (Query.get grow x fuel q b) (Query.get grow (x.cut ks kd) fuel q' b) := by
  unfold Query.get
  rw [hq]
  by_cases hn : q.n = 0
  · rw [if_pos hn, if_pos hn]; exact .inl rfl
  · rw [if_neg hn, if_neg hn, cut_shard]
    cases x.shards[(b.blot % q.n).toNat]? with
    | none => exact .inl rfl
    | some sh =>
      simp only [Option.map_some, ShardIndex.readStateFor, readState_cut, bind, Except.bind]
      cases sh.readStateForBlotAt (b.blot / q.n).toUInt16.toNat 0 with
      | error f => exact .inl rfl
      | ok rs => exact getLoop_cut grow x ks kd _ _ fuel rs b

theorem cut_states_set (ks : Nat → Nat) (l : List (Option ReadState)) (i : Nat) (s : Option ReadState) :
    (l.mapIdx fun i s => s.map (ReadState.cut (ks i))).set i (s.map (ReadState.cut (ks i))) =
      (l.set i s).mapIdx fun i s => s.map (ReadState.cut (ks i)) := by
  apply List.ext_getElem?
  intro j
  rw [List.getElem?_mapIdx, List.getElem?_set, List.getElem?_set, List.getElem?_mapIdx, List.length_mapIdx]
  by_cases h : i = j
  · subst h
    rw [if_pos rfl, if_pos rfl]
    by_cases hl : i < l.length
    · rw [if_pos hl, if_pos hl]; rfl
    · rw [if_neg hl, if_neg hl]; rfl
  · rw [if_neg h, if_neg h]

theorem maxLoop_cut (ks : Nat → Nat) (l : List (Option ReadState)) : ∀ (o k : Nat) (m p : UInt32),
    QState.maxLoop (l.mapIdx fun i s => s.map (ReadState.cut (ks (i + o)))) k m p = QState.maxLoop l k m p := by
  induction l with
  | nil => intro o k m p; rfl
  | cons s l ih =>
    intro o k m p
    rw [List.mapIdx_cons]
    have e : (l.mapIdx fun i s => s.map (ReadState.cut (ks (i + 1 + o)))) = l.mapIdx fun i s => s.map (ReadState.cut (ks (i + (o + 1)))) := by
      congr 1; funext i s; rw [show i + 1 + o = i + (o + 1) by omega]
    rw [e]
    cases s with
    | none => exact ih (o + 1) (k + 1) m p
    | some s =>
      simp only [Option.map_some, QState.maxLoop]
      show (if s.total > m then _ else _) = _
      rw [ih, ih]
      rfl

theorem setMax_cut (ks : Nat → Nat) (q : QState) : (q.cut ks).setMax = q.setMax.cut ks := by
  unfold QState.setMax QState.cut
  simp only [QState.mk.injEq, true_and, and_true]
  exact maxLoop_cut ks q.shardStates 0 0 0 0

theorem advance_cut (x : Index) (ks : Nat → Nat) (kd : Nat) (q : QState) (src : ReadState) (pos : UInt32) (k : Nat) :
    Query.advance (x.cut ks kd) (q.cut ks) (src.cut k) pos = (Query.advance x q src pos).map (QState.cut ks) := by
  unfold Query.advance
  have hset : ∀ rs : Option ReadState, (if pos.toNat < (q.cut ks).shardStates.length then
      (pure (QState.setMax { q.cut ks with shardStates := (q.cut ks).shardStates.set pos.toNat (rs.map (ReadState.cut (ks pos.toNat))) }) : M QState) else panic') =
      (if pos.toNat < q.shardStates.length then (pure (QState.setMax { q with shardStates := q.shardStates.set pos.toNat rs }) : M QState) else panic').map (QState.cut ks) := by
    intro rs
    have hl : (q.cut ks).shardStates.length = q.shardStates.length := by simp only [QState.cut, List.length_mapIdx]
    rw [hl]
    by_cases h : pos.toNat < q.shardStates.length
    · rw [if_pos h, if_pos h]
      simp only [pure, Except.pure, Except.map]
      rw [← setMax_cut]
      congr 1
      simp only [QState.cut, cut_states_set]
    · rw [if_neg h, if_neg h]; rfl
  have e1 : (src.cut k).at_ = src.at_ := rfl
  have e2 : (src.cut k).total = src.total := rfl
  rw [e1, e2]
  simp only [bind, Except.bind]
  by_cases h1 : src.at_ = 65535
  · rw [if_pos h1, if_pos h1]; exact hset none
  · rw [if_neg h1, if_neg h1]
    by_cases h2 : src.total ≤ 1
    · rw [if_pos h2, if_pos h2]; exact hset none
    · rw [if_neg h2, if_neg h2, cut_shard]
      cases x.shards[pos.toNat]? with
      | none => rfl
      | some sh =>
        simp only [Option.map_some, readStateAt_cut]
        cases sh.readStateAt (src.at_ + 1) with
        | error f => rfl
        | ok s => exact hset (some s)

theorem fillLoop_cut (grow : Nat → Nat) (x : Index) (ks : Nat → Nat) (kd : Nat) (q : QState) (pos : UInt32) (lim : Bool) (fuel : Nat) :
    ∀ (src : ReadState) (b : Blot), OrErr ((Query.fillLoop grow x q pos lim fuel src b).map fun r => (r.1, r.2.cut ks))
      (Query.fillLoop grow (x.cut ks kd) (q.cut ks) pos lim fuel (src.cut (ks pos.toNat)) b) := by
  induction fuel with
  | zero => intro src b; exact .inl rfl
  | succ fuel ih =>
    intro src b
    unfold Query.fillLoop
    by_cases hl : (!lim || decide (b.len < b.cap)) = true
    · rw [if_pos hl, if_pos hl]
      rcases rs_next_cut (ks pos.toNat) src with h | ⟨t, h⟩
      · rw [h]
        cases src.next with
        | error f =>
          cases f with
          | err e =>
            cases e with
            | eof =>
              simp only [Except.map, advance_cut, bind, Except.bind]
              left
              cases Query.advance x q src pos <;> rfl
            | _ => exact .inl rfl
          | panic => exact .inl rfl
          | diverge => exact .inl rfl
        | ok r =>
          obtain ⟨did, rs'⟩ := r
          simp only [Except.map, bind, Except.bind]
          cases b.next grow lim with
          | error f => exact .inl rfl
          | ok b' =>
            simp only []
            rcases docid2Doc_cut x ks kd did with g | ⟨e, g⟩
            · rw [g]
              cases x.docid2Doc did with
              | error f => exact .inl rfl
              | ok r => exact ih _ _
            · rw [g]; exact .inr ⟨_, rfl⟩
      · rw [h]; exact .inr ⟨_, rfl⟩
    · rw [if_neg hl, if_neg hl]
      left
      simp only [Except.map]
      congr 2
      simp only [QState.cut]
      congr 1
      exact cut_states_set ks q.shardStates pos.toNat (some src)

theorem nextLoop_cut (grow : Nat → Nat) (x : Index) (ks : Nat → Nat) (kd ff : Nat) (fuel : Nat) : ∀ (q : QState) (n : Nat) (dst : List Blot),
    OrErr ((Query.nextLoop grow x ff fuel q n dst).map (Query.NextResult.cut ks)) (Query.nextLoop grow (x.cut ks kd) ff fuel (q.cut ks) n dst) := by
  induction fuel with
  | zero => intro q n dst; exact .inl rfl
  | succ fuel ih =>
    intro q n dst
    unfold Query.nextLoop
    cases dst[n]? with
    | none => exact .inl rfl
    | some b =>
      simp only []
      have hs : (q.cut ks).shardStates[(q.cut ks).i.toNat]? = (q.shardStates[q.i.toNat]?).map fun s => s.map (ReadState.cut (ks q.i.toNat)) := by
        simp only [QState.cut, List.getElem?_mapIdx]
      rw [hs]
      cases q.shardStates[q.i.toNat]? with
      | none => exact .inl rfl
      | some s =>
        cases s with
        | none =>
          simp only [Option.map_some, Option.map_none]
          by_cases hn : q.nilCount + 1 = q.n
          · rw [if_pos hn]
            show OrErr _ (if q.nilCount + 1 = q.n then _ else _)
            rw [if_pos hn]; exact .inl rfl
          · rw [if_neg hn]
            show OrErr _ (if q.nilCount + 1 = q.n then _ else _)
            rw [if_neg hn]
            exact ih { q with nilCount := q.nilCount + 1, i := if q.i + 1 = q.n then 0 else q.i + 1 } n dst
        | some src =>
          simp only [Option.map_some, bind, Except.bind]
          have hf : OrErr ((Query.fillBlot grow x ff q b src q.i).map fun r => (r.1, r.2.cut ks))
              (Query.fillBlot grow (x.cut ks kd) ff (q.cut ks) b (src.cut (ks q.i.toNat)) (q.cut ks).i) :=
            fillLoop_cut grow x ks kd q q.i _ ff src _
          rcases hf with h | ⟨e, h⟩
          · rw [h]
            cases Query.fillBlot grow x ff q b src q.i with
            | error f => exact .inl rfl
            | ok r =>
              obtain ⟨b', q'⟩ := r
              simp only [Except.map]
              by_cases hb : b'.len ≤ 1
              · rw [if_pos hb, if_pos hb]
                have : (q'.cut ks).i = q'.i := rfl
                rw [this, advance_cut]
                cases Query.advance x q' src q'.i with
                | error f => exact .inl rfl
                | ok q'' => exact ih q'' n _
              · rw [if_neg hb, if_neg hb]
                exact ih q' (n + 1) _
          · rw [h]; exact .inr ⟨e, rfl⟩

theorem next_cut (grow : Nat → Nat) (x : Index) (ks : Nat → Nat) (kd ff fuel : Nat) (q : QState) (dst : List Blot) :
    OrErr ((Query.next grow x ff fuel q dst).map (Query.NextResult.cut ks)) (Query.next grow (x.cut ks kd) ff fuel (q.cut ks) dst) :=
  nextLoop_cut grow x ks kd ff fuel q 0 dst

theorem initStates_cut (ks : Nat → Nat) (l : List ShardIndex) : ∀ o, Index.initStates (l.mapIdx fun i s => s.cut (ks (i + o))) =
    (Index.initStates l).map (List.mapIdx fun i s => s.map (ReadState.cut (ks (i + o)))) := by
  induction l with
  | nil => intro o; rfl
  | cons s l ih =>
    intro o
    rw [List.mapIdx_cons]
    have e : (l.mapIdx fun i s => s.cut (ks (i + 1 + o))) = l.mapIdx fun i s => s.cut (ks (i + (o + 1))) := by
      congr 1; funext i s; rw [show i + 1 + o = i + (o + 1) by omega]
    rw [e]
    simp only [Index.initStates, readStateAt_cut, bind, Except.bind, ih (o + 1)]
    cases s.readStateAt 0 with
    | error f => rfl
    | ok rs =>
      simp only [Except.map]
      cases Index.initStates l with
      | error f => rfl
      | ok ss =>
        simp only [pure, Except.pure, List.mapIdx_cons, Option.map_some]
        congr 3
        funext i s
        rw [show i + 1 + o = i + (o + 1) by omega]

theorem startQuery_cut (x : Index) (ks : Nat → Nat) (kd : Nat) : (x.cut ks kd).startQuery = x.startQuery.map (QState.cut ks) := by
  unfold Index.startQuery
  have h := initStates_cut ks x.shards 0
  simp only [Nat.add_zero] at h
  have h' : Index.initStates (x.cut ks kd).shards = (Index.initStates x.shards).map (List.mapIdx fun i s => s.map (ReadState.cut (ks i))) := h
  rw [h']
  simp only [bind, Except.bind]
  cases Index.initStates x.shards with
  | error f => rfl
  | ok ss =>
    simp only [Except.map, pure, Except.pure]
    rw [← setMax_cut]
    simp only [QState.cut, Index.cut, List.length_mapIdx]

/-! ## Opening -/

theorem read_cutFrom {d d' : Dir} (h : CutFrom d d') (f : File) : (∃ e, d'.read f = fail e) ∨ ∃ b k, d.read f = .ok b ∧ d'.read f = .ok (b.take k) := by
  rcases h f with h | ⟨b, k, h1, h2⟩
  · left; exact ⟨.notExist, by unfold Dir.read; rw [h]⟩
  · right; exact ⟨b, k, by unfold Dir.read; rw [h1], by unfold Dir.read; rw [h2]⟩

theorem openShards_cut (srt : Sorter) {d d' : Dir} (h : CutFrom d d') (n : Nat) : ∀ i, (∃ e, Index.openShards srt d' n i = fail e) ∨
    ∃ ks : Nat → Nat, Index.openShards srt d' n i = (Index.openShards srt d n i).map fun l => l.mapIdx fun j s => s.cut (ks j) := by
  induction n with
  | zero => intro i; exact .inr ⟨fun _ => 0, rfl⟩
  | succ n ih =>
    intro i
    unfold Index.openShards
    simp only [bind, Except.bind]
    rcases read_cutFrom h (.iix i) with ⟨e, h1⟩ | ⟨iix, k, h1, h2⟩
    · rw [h1]; exact .inl ⟨e, rfl⟩
    · rw [h1, h2]
      simp only []
      rcases readIix_cut ShardIndexer.nBlots iix k with g | ⟨e, g⟩
      · rw [g]
        cases ShardIndex.readIix ShardIndexer.nBlots iix with
        | error f => exact .inr ⟨fun _ => 0, rfl⟩
        | ok es =>
          simp only []
          rcases read_cutFrom h (.pos i) with ⟨e, g1⟩ | ⟨post, kp, g1, g2⟩
          · rw [g1]; exact .inl ⟨e, rfl⟩
          · rw [g1, g2]
            simp only []
            rcases ih (i + 1) with ⟨e, m⟩ | ⟨ks, m⟩
            · rw [m]; exact .inl ⟨e, rfl⟩
            · rw [m]
              refine .inr ⟨fun j => match j with | 0 => kp | j + 1 => ks j, ?_⟩
              cases Index.openShards srt d n (i + 1) with
              | error f => rfl
              | ok xs => simp only [Except.map, pure, Except.pure, List.mapIdx_cons]; rfl
      · rw [g]; exact .inl ⟨e, rfl⟩

theorem open_cut (J : CfgCodec) (srt : Sorter) {d d' : Dir} (h : CutFrom d d') (hJ : OrErr (Config.readFrom J d) (Config.readFrom J d')) :
    (∃ e, Index.open J srt d' = fail e) ∨ ∃ ks kd, Index.open J srt d' = (Index.open J srt d).map (Index.cut ks kd) := by
  unfold Index.open
  simp only [bind, Except.bind]
  rcases hJ with hJ | ⟨e, hJ⟩
  · rw [hJ]
    cases Config.readFrom J d with
    | error f => exact .inr ⟨fun _ => 0, 0, rfl⟩
    | ok c =>
      simp only []
      rcases read_cutFrom h .dmd with ⟨e, h1⟩ | ⟨dmd, kd, h1, h2⟩
      · rw [h1]; exact .inl ⟨e, rfl⟩
      · rw [h1, h2]
        simp only []
        rcases read_cutFrom h .fnm with ⟨e, h3⟩ | ⟨fnm, kf, h3, h4⟩
        · rw [h3]; exact .inl ⟨e, rfl⟩
        · rw [h3, h4]
          simp only []
          rcases fnames_cut fnm kf with g | ⟨e, g⟩
          · rw [g]
            cases Fnames.read fnm with
            | error f => exact .inr ⟨fun _ => 0, 0, rfl⟩
            | ok t =>
              simp only []
              by_cases hc : c.numShards < 0
              · rw [if_pos hc, if_pos hc]; exact .inr ⟨fun _ => 0, 0, rfl⟩
              · rw [if_neg hc, if_neg hc]
                rcases openShards_cut srt h c.numShards.toNat 0 with ⟨e, m⟩ | ⟨ks, m⟩
                · rw [m]; exact .inl ⟨e, rfl⟩
                · rw [m]
                  refine .inr ⟨ks, kd, ?_⟩
                  cases Index.openShards srt d c.numShards.toNat 0 <;> rfl
          · rw [g]; exact .inl ⟨e, rfl⟩
  · rw [hJ]; exact .inl ⟨e, rfl⟩

/-! ## Empty posting files -/

theorem openShards_files (srt : Sorter) (d : Dir) (n : Nat) : ∀ i xs, Index.openShards srt d n i = .ok xs → ∀ s ∈ xs, ∃ j, d (.pos j) = some s.file := by
  induction n with
  | zero => intro i xs h s hs; cases h; cases hs
  | succ n ih =>
    intro i xs h s hs
    unfold Index.openShards at h
    simp only [bind, Except.bind] at h
    cases h1 : d.read (.iix i) with
    | error e => rw [h1] at h; cases h
    | ok iix =>
      rw [h1] at h
      simp only [] at h
      cases h2 : ShardIndex.readIix ShardIndexer.nBlots iix with
      | error e => rw [h2] at h; cases h
      | ok es =>
        rw [h2] at h
        simp only [] at h
        cases h3 : d.read (.pos i) with
        | error e => rw [h3] at h; cases h
        | ok post =>
          rw [h3] at h
          simp only [] at h
          cases h4 : Index.openShards srt d n (i + 1) with
          | error e => rw [h4] at h; cases h
          | ok xs' =>
            rw [h4] at h
            simp only [pure, Except.pure] at h
            injection h with h
            subst h
            cases hs with
            | head =>
              refine ⟨i, ?_⟩
              unfold Dir.read at h3
              cases hd : d (.pos i) with
              | none => rw [hd] at h3; cases h3
              | some b => rw [hd] at h3; injection h3 with h3; rw [h3]
            | tail _ hs => exact ih _ _ h4 s hs

theorem open_files {J : CfgCodec} {srt : Sorter} {d : Dir} {x : Index} (h : Index.open J srt d = .ok x) : ∀ s ∈ x.shards, ∃ j, d (.pos j) = some s.file := by
  unfold Index.open at h
  simp only [bind, Except.bind] at h
  cases h1 : Config.readFrom J d with
  | error e => rw [h1] at h; cases h
  | ok c =>
    rw [h1] at h
    simp only [] at h
    cases h2 : d.read .dmd with
    | error e => rw [h2] at h; cases h
    | ok dmd =>
      rw [h2] at h
      simp only [] at h
      cases h3 : d.read .fnm with
      | error e => rw [h3] at h; cases h
      | ok fnm =>
        rw [h3] at h
        simp only [] at h
        cases h4 : Fnames.read fnm with
        | error e => rw [h4] at h; cases h
        | ok t =>
          rw [h4] at h
          simp only [] at h
          by_cases hc : c.numShards < 0
          · rw [if_pos hc] at h; cases h
          · rw [if_neg hc] at h
            cases h5 : Index.openShards srt d c.numShards.toNat 0 with
            | error e => rw [h5] at h; cases h
            | ok xs =>
              rw [h5] at h
              simp only [pure, Except.pure] at h
              injection h with h
              subst h
              exact openShards_files srt d _ _ _ h5

theorem openShards_again (srt : Sorter) {d d' : Dir} (h1 : ∀ i, d' (.iix i) = d (.iix i)) (h2 : ∀ i b, d (.pos i) = some b → ∃ b', d' (.pos i) = some b') (n : Nat) :
    ∀ i xs, Index.openShards srt d n i = .ok xs → ∃ xs', Index.openShards srt d' n i = .ok xs' := by
  induction n with
  | zero => intro i xs h; exact ⟨[], rfl⟩
  | succ n ih =>
    intro i xs h
    unfold Index.openShards at h ⊢
    have hi : d'.read (.iix i) = d.read (.iix i) := by unfold Dir.read; rw [h1]
    rw [hi]
    simp only [bind, Except.bind] at h ⊢
    cases g1 : d.read (.iix i) with
    | error e => rw [g1] at h; cases h
    | ok iix =>
      rw [g1] at h
      simp only [] at h ⊢
      cases g2 : ShardIndex.readIix ShardIndexer.nBlots iix with
      | error e => rw [g2] at h; cases h
      | ok es =>
        rw [g2] at h
        simp only [] at h ⊢
        cases g3 : d (.pos i) with
        | none => unfold Dir.read at h; rw [g3] at h; cases h
        | some b =>
          obtain ⟨b', hb'⟩ := h2 i b g3
          have r : d.read (.pos i) = .ok b := by unfold Dir.read; rw [g3]
          have r' : d'.read (.pos i) = .ok b' := by unfold Dir.read; rw [hb']
          rw [r] at h
          rw [r']
          simp only [] at h ⊢
          cases g4 : Index.openShards srt d n (i + 1) with
          | error e => rw [g4] at h; cases h
          | ok xs1 =>
            obtain ⟨xs2, h5⟩ := ih (i + 1) xs1 g4
            rw [h5]
            exact ⟨_, rfl⟩

theorem open_again {J : CfgCodec} {srt : Sorter} {d d' : Dir} {x : Index} (h1 : ∀ f, (∀ i, f ≠ .pos i) → d' f = d f)
    (h2 : ∀ i b, d (.pos i) = some b → ∃ b', d' (.pos i) = some b') (h : Index.open J srt d = .ok x) : ∃ x', Index.open J srt d' = .ok x' := by
  unfold Index.open at h ⊢
  have e1 : Config.readFrom J d' = Config.readFrom J d := by unfold Config.readFrom Dir.read; rw [h1 .cfg (fun i => by intro h; cases h)]
  have e2 : d'.read .dmd = d.read .dmd := by unfold Dir.read; rw [h1 .dmd (fun i => by intro h; cases h)]
  have e3 : d'.read .fnm = d.read .fnm := by unfold Dir.read; rw [h1 .fnm (fun i => by intro h; cases h)]
  rw [e1, e2, e3]
  simp only [bind, Except.bind] at h ⊢
  cases g1 : Config.readFrom J d with
  | error e => rw [g1] at h; cases h
  | ok c =>
    rw [g1] at h
    simp only [] at h ⊢
    cases g2 : d.read .dmd with
    | error e => rw [g2] at h; cases h
    | ok dmd =>
      rw [g2] at h
      simp only [] at h ⊢
      cases g3 : d.read .fnm with
      | error e => rw [g3] at h; cases h
      | ok fnm =>
        rw [g3] at h
        simp only [] at h ⊢
        cases g4 : Fnames.read fnm with
        | error e => rw [g4] at h; cases h
        | ok t =>
          rw [g4] at h
          simp only [] at h ⊢
          by_cases hc : c.numShards < 0
          · rw [if_pos hc] at h; cases h
          · rw [if_neg hc] at h ⊢
            cases g5 : Index.openShards srt d c.numShards.toNat 0 with
            | error e => rw [g5] at h; cases h
            | ok xs =>
              obtain ⟨xs', g6⟩ := openShards_again srt (fun i => h1 (.iix i) (fun j => by intro h; cases h)) h2 _ _ _ g5
              rw [g6]
              exact ⟨_, rfl⟩

theorem readVarintAt_nil (p : Int) : ∃ e, readVarintAt [] p = fail e := by
  unfold readVarintAt readVarintAtLoop readAt
  simp only [bind, Except.bind]
  by_cases h : p + (([] : Bytes).length : Int) < 0
  · rw [if_pos h]; exact ⟨_, rfl⟩
  · rw [if_neg h, if_neg (by decide), if_neg (by show ¬ _ + 1 ≤ 0; omega)]; exact ⟨_, rfl⟩

theorem new_next_nil (hd : Int) : (Posts.new hd).next [] = fail .eof ∨ ∃ s e, (Posts.new hd).next [] = fail (.wrap s e) := by
  unfold Posts.next
  have h : (Posts.new hd).i = (Posts.new hd).docids.length := rfl
  rw [if_pos h]
  by_cases hm : (Posts.new hd).nextpos = -1
  · rw [if_pos hm]; exact .inl rfl
  · rw [if_neg hm]
    obtain ⟨e, he⟩ := readVarintAt_nil (Posts.new hd).nextpos
    unfold Posts.readNext
    rw [he]
    exact .inr ⟨_, _, rfl⟩

theorem get_nil_file (grow : Nat → Nat) (x : Index) (fuel : Nat) (q : QState) (b : UInt32) (h : ∀ s ∈ x.shards, s.file = []) {r : Blot}
    (hr : Query.get grow x fuel q ⟨b, none⟩ = .ok r) : r.vis = [] := by
  unfold Query.get at hr
  by_cases hn : q.n = 0
  · rw [if_pos hn] at hr; cases hr
  · rw [if_neg hn] at hr
    simp only [] at hr
    cases hs : x.shards[(b % q.n).toNat]? with
    | none => rw [hs] at hr; cases hr
    | some sh =>
      rw [hs] at hr
      simp only [bind, Except.bind, ShardIndex.readStateFor, ShardIndex.readStateForBlotAt] at hr
      cases hh : sh.heads[(b / q.n).toUInt16.toNat]? with
      | none => rw [hh] at hr; cases hr
      | some hd =>
        cases hc : sh.counts[(b / q.n).toUInt16.toNat]? with
        | none => rw [hh, hc] at hr; cases hr
        | some ct =>
          rw [hh, hc] at hr
          simp only [h sh (List.mem_of_getElem? hs)] at hr
          cases fuel with
          | zero => cases hr
          | succ fuel =>
            unfold Query.getLoop at hr
            simp only [Option.isSome_none, Bool.false_and, Bool.false_eq_true, if_false, ReadState.next] at hr
            rcases new_next_nil hd with he | ⟨s, e, he⟩
            · rw [he] at hr
              injection hr with hr
              subst hr
              rfl
            · rw [he] at hr
              cases hr

end Dupi
